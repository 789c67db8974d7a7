import Verif.Model.Py
import Mathlib.Logic.Function.Iterate

/-!
# Model of `crc32` of `fog/lsh/utils.py`

`binascii.crc32` belongs to Python's standard library and is modelled after its definition (CRC-32 of zlib, bit by bit). Strings are lists of
characters, which have no surrogates: simplified, Python strings may have some, on which `encode` raises.
-/

namespace Fog.LshUtils

/-- One bit of `binascii.crc32` (lsh/utils.py l. 21). -/
def crcStep (s : BitVec 32) : BitVec 32 := (s >>> 1) ^^^ (if s.getLsbD 0 then 0xEDB88320#32 else 0#32)

/-- One byte of `binascii.crc32` (lsh/utils.py l. 21). -/
def crcByte (s : BitVec 32) (b : UInt8) : BitVec 32 := crcStep^[8] (s ^^^ b.toBitVec.setWidth 32)

/-- `binascii.crc32(data)` (lsh/utils.py l. 21). -/
def binasciiCrc32 (data : List UInt8) : Nat := (~~~ (data.foldl crcByte 0xFFFFFFFF#32)).toNat

/-- `x.encode()` (lsh/utils.py l. 21): in UTF-8. -/
def encode (x : List Char) : List UInt8 := x.flatMap String.utf8EncodeChar

/-- `crc32(x)` (lsh/utils.py l. 20-21). -/
def crc32 (x : List Char) : Nat := binasciiCrc32 (encode x) &&& 0xFFFFFFFF

end Fog.LshUtils
