/-!
# CRC-32 (IEEE 802.3, reflected)

The textbook definition, bit by bit: the register starts with all ones; each byte is added to its low end; eight times, the register is shifted right
and, if a one falls out, the reflected generator polynomial 0xEDB88320 is added; at the end all bits are inverted.
-/

namespace Scalopus.Crc.Spec

/-- Shift out one bit. -/
def shift (r : BitVec 32) : BitVec 32 := if r.getLsbD 0 then (r >>> 1) ^^^ 0xEDB88320 else r >>> 1

/-- Take in one byte. -/
def byte (r : BitVec 32) (b : UInt8) : BitVec 32 :=
  let r := r ^^^ b.toBitVec.setWidth 32
  shift (shift (shift (shift (shift (shift (shift (shift r)))))))

/-- CRC-32 of a string of bytes. -/
def crc32 (data : List UInt8) : BitVec 32 := (data.foldl byte 0xFFFFFFFF) ^^^ 0xFFFFFFFF

end Scalopus.Crc.Spec
