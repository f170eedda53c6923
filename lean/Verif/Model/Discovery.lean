import Verif.Model.Protocol

/-!
# Discovery over /proc/net/unix

Models `TransportUnix::getTransportServers` (scalopus_transport/src/transport_unix.cpp:169-202),
`TransportUnixFactory::discover` (436-444) and `DestinationUnix` (421-434), with the string functions they use.

Simplification: the content of the file is given; a file that cannot be opened is an empty one.
-/

namespace Scalopus.Discovery

open Protocol

/-- The space character. -/
def sp : UInt8 := 32

/-- The suffix `"_scalopus"`, transport_unix.cpp:173. -/
def suffix : Bytes := [95, 115, 99, 97, 108, 111, 112, 117, 115]

/-- `std::string::rfind(c, pos)` as used in transport_unix.cpp:187,189: the greatest index of `c` that is at most `pos`. -/
def rfind (c : UInt8) (l : Bytes) : Nat → Option Nat
  | 0 => if l[0]? = some c then some 0 else none
  | p + 1 => if l[p + 1]? = some c then some (p + 1) else rfind c l p

/-- `isspace` in the C locale, used by `atoi` and `strtoul`. -/
def isSpace (b : UInt8) : Bool := b = 32 || (9 ≤ b && b ≤ 13)

/-- A decimal digit. -/
def isDigit (b : UInt8) : Bool := 48 ≤ b && b ≤ 57

/-- The digits at the start of a string, in base ten, as read by `strtol` and `strtoul`. -/
def digitsVal (acc : Nat) : Bytes → Nat
  | [] => acc
  | b :: bs => if isDigit b then digitsVal (acc * 10 + (b.toNat - 48)) bs else acc

/-- `c_str()` seen by a C function: up to the first NUL. -/
def cStr (s : Bytes) : Bytes := s.takeWhile (· ≠ 0)

/-- `strtol(s, ., 10)` of glibc on a 64-bit system. -/
def strtol (s : Bytes) : Int :=
  match (cStr s).dropWhile isSpace with
  | 45 :: r => max (-(digitsVal 0 r : Int)) (-(2 ^ 63))
  | 43 :: r => min (digitsVal 0 r) (2 ^ 63 - 1)
  | r => min (digitsVal 0 r) (2 ^ 63 - 1)

/-- `atoi`, transport_unix.cpp:191: glibc casts the result of `strtol` to a 32-bit `int`. -/
def atoi (s : Bytes) : Int := (strtol s).bmod (2 ^ 32)

/-- `strtoul(s, ., 10)` of glibc on a 64-bit system, transport_unix.cpp:197. -/
def strtoul (s : Bytes) : Nat :=
  match (cStr s).dropWhile isSpace with
  | 45 :: r => if digitsVal 0 r < 2 ^ 64 then (2 ^ 64 - digitsVal 0 r) % 2 ^ 64 else 2 ^ 64 - 1
  | 43 :: r => min (digitsVal 0 r) (2 ^ 64 - 1)
  | r => min (digitsVal 0 r) (2 ^ 64 - 1)

/-- The body of the loop for one line, transport_unix.cpp:179-198: a process id, or nothing. `substr` with a position behind
    the end (here: `npos`) throws `std::out_of_range`. With `space_before_path = 0` the subtraction in line 189 wraps around
    to `npos` and the search starts at the end. `path.size() - suffix.size()` wraps around if the path is shorter than the
    suffix, then the whole path is taken. -/
def lineServer (line : Bytes) : Res (Option Nat) :=
  if line.length < suffix.length then .ok none
  else if line.drop (line.length - suffix.length) = suffix then
    match rfind sp line line.length with
    | none => .throws "out_of_range"
    | some spaceBeforePath =>
      let path := line.drop (spaceBeforePath + 2)
      match rfind sp line (if spaceBeforePath = 0 then line.length else spaceBeforePath - 1) with
      | none => .throws "out_of_range"
      | some spaceBeforeInode =>
        let inode := (line.drop spaceBeforeInode).take (spaceBeforePath - spaceBeforeInode)
        if atoi inode = 0 then .ok none
        else
          let pid := if path.length < suffix.length then path else path.take (path.length - suffix.length)
          .ok (some (strtoul pid))
  else .ok none

/-- The loop over the lines, transport_unix.cpp:177-201. -/
def linesServers : List Bytes → Res (List Nat)
  | [] => .ok []
  | l :: ls => (lineServer l).bind fun r => (linesServers ls).bind fun rs => .ok (r.toList ++ rs)

/-- `std::getline` until the end of the file: the lines, without their newlines. A last line without newline counts if it is
    not empty. -/
def getlines : Bytes → List Bytes
  | [] => []
  | b :: bs =>
    if b = 10 then [] :: getlines bs
    else match getlines bs with
      | [] => [[b]]
      | l :: ls => (b :: l) :: ls

/-- `getTransportServers`, transport_unix.cpp:169-202, given the content of the file. -/
def getTransportServers (file : Bytes) : Res (List Nat) := linesServers (getlines file)

/-- `discover`, transport_unix.cpp:436-444; the constructor of `DestinationUnix` (421-423) takes an `unsigned int`. -/
def discover (file : Bytes) : Res (List Nat) := (getTransportServers file).bind fun l => .ok (l.map (· % 2 ^ 32))

end Scalopus.Discovery
