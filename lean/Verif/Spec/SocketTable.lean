import Verif.Model.Protocol

/-!
# What the kernel prints in /proc/net/unix

Independent of the code that reads it: one line per socket, `Num RefCount Protocol Flags Type St Inode Path`, with the inode
printed as `%5lu` and the path only for bound sockets, preceded by a space, with an `@` in front of names in the abstract
namespace (net/unix/af_unix.c, `unix_seq_show`).
-/

namespace Scalopus.SocketTable

open Protocol

/-- Decimal digits of a number. -/
def decimal (n : Nat) : Bytes :=
  if n < 10 then [UInt8.ofNat (48 + n)] else decimal (n / 10) ++ [UInt8.ofNat (48 + n % 10)]

/-- `%5lu` -/
def padded (n : Nat) : Bytes := List.replicate (5 - (decimal n).length) 32 ++ decimal n

/-- The address of a socket. -/
inductive Addr where
  | unbound
  /-- abstract namespace -/
  | abstract (name : Bytes)
  /-- a path in the file system -/
  | file (path : Bytes)
  deriving Repr, DecidableEq

/-- The printed address. -/
def Addr.print : Addr → Bytes
  | .unbound => []
  | .abstract n => 32 :: 64 :: n
  | .file p => 32 :: p

/-- A socket. `columns` is the text of the first six columns. -/
structure Sock where
  columns : Bytes
  inode : Nat
  addr : Addr
  deriving Repr, DecidableEq

/-- The line of a socket. -/
def Sock.line (s : Sock) : Bytes := s.columns ++ 32 :: padded s.inode ++ s.addr.print

/-- The file: a header line and one line per socket. -/
def file (header : Bytes) (socks : List Sock) : Bytes :=
  header ++ 10 :: (socks.map fun s => s.line ++ [10]).flatten

/-- `"_scalopus"` -/
def scalopus : Bytes := "_scalopus".toList.map fun c => UInt8.ofNat c.toNat

/-- The address a scalopus server of process `pid` listens on (`serve`, transport_unix.cpp:56-66). -/
def serverAddr (pid : Nat) : Addr := .abstract (decimal pid ++ scalopus)

end Scalopus.SocketTable
