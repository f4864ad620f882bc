import Verif.Basic
/-!
# Writing integers

Model of `riegeli/bytes/write_int_internal.{h,cc}` and `riegeli/text/write_int.{h,cc}`. A function which writes characters from `dest` and
returns the end of them is modelled by the characters; a function which writes characters before `dest` is modelled by adding them before
other ones. A conversion to a type with `k` bits (`IntCast`, which asserts that the value fits, or `static_cast`) is modelled by `% 2 ^ k`. The
variants with and without SSSE3 are both modelled.
-/
namespace Riegeli.Num

/-! ## Decimal -/

/-- `WriteDec1Impl()` (`write_int_internal.cc:37-42`). -/
def dec1 (src : Nat) : Bytes := [48 + UInt8.ofNat src]

/-- `kTwoDigits` (`write_int_internal.cc:47-64`): written out as a function of the index. -/
def kTwoDigits (i : Nat) : Bytes := [UInt8.ofNat (48 + i / 10), UInt8.ofNat (48 + i % 10)]

/-- `WriteDec2Impl()` (`write_int_internal.cc:44-67`). -/
def dec2 (src : Nat) : Bytes := kTwoDigits src

/-- The code from `write_4_digits` (`write_int_internal.cc:124-129`). -/
def write4 (src : Nat) : Bytes := dec2 (src / 100) ++ dec2 (src % 100)

/-- The code from `write_6_digits` (`write_int_internal.cc:120-129`). -/
def write6 (src : Nat) : Bytes := dec2 (src / 10000) ++ write4 (src % 10000)

/-- The code from `write_8_digits` (`write_int_internal.cc:116-129`). -/
def write8 (src : Nat) : Bytes := dec2 (src / 1000000) ++ write6 (src % 1000000)

/-- `WriteDecImpl(uint32_t)` (`write_int_internal.cc:73-130`). -/
def decImpl32 (src width : Nat) : Bytes :=
  if src < 100 ∧ width ≤ 2 then
    if 10 ≤ src ∨ width = 2 then dec2 src else dec1 src
  else if src < 10000 ∧ width ≤ 4 then
    if 1000 ≤ src ∨ width = 4 then write4 src else dec1 (src / 100) ++ dec2 (src % 100)
  else if src < 1000000 ∧ width ≤ 6 then
    if 100000 ≤ src ∨ width = 6 then write6 src else dec1 (src / 10000) ++ write4 (src % 10000)
  else if src < 100000000 ∧ width ≤ 8 then
    if 10000000 ≤ src ∨ width = 8 then write8 src else dec1 (src / 1000000) ++ write6 (src % 1000000)
  else if src < 1000000000 ∧ width ≤ 9 then dec1 (src / 100000000) ++ write8 (src % 100000000)
  else
    List.replicate (if 10 < width then width - 10 else 0) 48 ++ dec2 (src / 100000000) ++ write8 (src % 100000000)

/-- `WriteDecImpl(uint64_t)` (`write_int_internal.cc:134-153`). -/
def decImpl64 (src width : Nat) : Bytes :=
  if src ≤ 2 ^ 32 - 1 then decImpl32 (src % 2 ^ 32) width
  else
    let over := 10000000000 ≤ src ∨ 10 < width
    let hi := if over then decImpl32 (src / 10000000000 % 2 ^ 32) (width - 10) else []
    let src := if over then src % 10000000000 else src
    hi ++ dec2 (src / 100000000 % 2 ^ 32) ++ decImpl32 (src % 100000000 % 2 ^ 32) 8

/-- `WriteDecImpl(absl::uint128)` (`write_int_internal.cc:157-179`). -/
def decImpl128 (src width : Nat) : Bytes :=
  if src ≤ 2 ^ 64 - 1 then decImpl64 (src % 2 ^ 64) width
  else
    let k1e20 := 5 * 2 ^ 64 + 0x6bc75e2d63100000
    let over := k1e20 ≤ src ∨ 20 < width
    let hi := if over then decImpl64 (src / k1e20 % 2 ^ 64) (width - 20) else []
    let src := if over then src % k1e20 else src
    hi ++ dec2 (src / 1000000000000000000 % 2 ^ 32) ++ decImpl64 (src % 1000000000000000000 % 2 ^ 64) 18

/-- `WriteDec(uint32_t)`, `WriteDec(uint64_t)`, `WriteDec(absl::uint128)` with width (`write_int_internal.cc:227-237`) for a type with the given
number of bits (`FitsIn`, `write_int_internal.h:29-38`); without width (`write_int_internal.cc:183-189`) the width is 0. -/
def writeDec (bits src width : Nat) : Bytes :=
  if bits ≤ 32 then decImpl32 src width else if bits ≤ 64 then decImpl64 src width else decImpl128 src width

/-- `UnsignedCast()` (`arithmetic.h:124-129`) of a non-negative value and `NegatingUnsignedCast()` (`arithmetic.h:131-142`) of a negative
value of a signed type with the given number of bits: negation is in the unsigned type. -/
def absValue (bits : Nat) (src : Int) : Nat :=
  if 0 ≤ src then src.toNat else (2 ^ bits - (src % 2 ^ bits).toNat) % 2 ^ bits

/-- `WriteDec(int32_t)`, `WriteDec(int64_t)`, `WriteDec(absl::int128)` with width (`write_int_internal.cc:239-276`); without width
(`write_int_internal.cc:191-225`) the width is 0. -/
def writeDecSigned (bits : Nat) (src : Int) (width : Nat) : Bytes :=
  if 0 ≤ src then writeDec bits (absValue bits src) width else 45 :: writeDec bits (absValue bits src) (width - 1)

/-- `WriteDecUnsigned()` (`write_int_internal.h:97-126`). -/
def decUnsigned (bits src width : Nat) : Bytes := if width ≤ 1 then writeDec bits src 0 else writeDec bits src width

/-- `WriteDecSigned()` (`write_int_internal.h:128-154`). -/
def decSigned (bits : Nat) (src : Int) (width : Nat) : Bytes := if width ≤ 1 then writeDecSigned bits src 0 else writeDecSigned bits src width

/-- `WriteDecBackward(uint32_t)` (`write_int_internal.cc:278-293`), before `after`. -/
def decBack32 (src : Nat) (after : Bytes) : Bytes :=
  if 100 ≤ src then decBack32 (src / 100) (dec2 (src % 100) ++ after)
  else if 10 ≤ src then dec2 src ++ after
  else dec1 src ++ after
termination_by src

/-- `WriteDecBackward(uint64_t)` (`write_int_internal.cc:295-303`). -/
def decBack64 (src : Nat) (after : Bytes) : Bytes :=
  if 2 ^ 32 - 1 < src then decBack64 (src / 100) (dec2 (src % 100 % 2 ^ 32) ++ after) else decBack32 (src % 2 ^ 32) after
termination_by src

/-- `WriteDecBackward(absl::uint128)` (`write_int_internal.cc:305-313`). -/
def decBack128 (src : Nat) (after : Bytes) : Bytes :=
  if 2 ^ 64 - 1 < src then decBack128 (src / 100) (dec2 (src % 100 % 2 ^ 32) ++ after) else decBack64 (src % 2 ^ 64) after
termination_by src

/-- `WriteDecUnsignedBackward()` (`write_int_internal.h:164-184`). -/
def decBack (bits src : Nat) (after : Bytes) : Bytes :=
  if bits ≤ 32 then decBack32 src after else if bits ≤ 64 then decBack64 src after else decBack128 src after

/-- `WriteDecSignedBackward()` (`write_int_internal.h:186-205`), `WriteDecBackward()` (`write_int_internal.cc:315-346`). -/
def decBackSigned (bits : Nat) (src : Int) (after : Bytes) : Bytes :=
  if 0 ≤ src then decBack bits (absValue bits src) after else 45 :: decBack bits (absValue bits src) after

/-- `absl::bit_width()`. -/
def bitWidth (n : Nat) : Nat := if n = 0 then 0 else n.log2 + 1

/-- `std::numeric_limits<T>::digits10` for an unsigned type with the given number of bits. -/
def digits10 (bits : Nat) : Nat := bits * 30103 / 100000

/-- The loop of `MakeStringifiedSizeEntries()` (`write_int_internal.cc:371-383`): the remaining entries. -/
def entriesFrom (bits : Nat) : Nat → Nat → Nat → Nat → List (Nat × Nat)
  | 0, _, _, _ => []
  | k + 1, size, threshold, upper =>
    (size, threshold) ::
      if size < digits10 bits + 1 then
        let upper := (upper * 2 ^ 2 % 2 ^ bits + 3) % 2 ^ bits
        let next := (threshold * 2 ^ 3 % 2 ^ bits + threshold * 2 ^ 1 % 2 ^ bits) % 2 ^ bits
        if next ≤ upper then entriesFrom bits k (size + 1) next upper else entriesFrom bits k size threshold upper
      else entriesFrom bits k size threshold upper

/-- `MakeStringifiedSizeEntries()` (`write_int_internal.cc:361-386`). -/
def entries (bits : Nat) : List (Nat × Nat) :=
  match entriesFrom bits (bits / 2 + 1) 1 1 3 with
  | [] => []
  | (size, _) :: es => (size, 0) :: es

/-- `StringifiedSize()` for `uint32_t`, `uint64_t`, `absl::uint128` (`write_int_internal.cc:388-416`). -/
def stringifiedSizeOf (bits src : Nat) : Nat :=
  let entry := (entries bits).getD (bitWidth src / 2) (0, 0)
  entry.1 - if src < entry.2 then 1 else 0

/-- `StringifiedSizeUnsigned()` (`write_int_internal.h:214-233`). -/
def stringifiedSize (bits src : Nat) : Nat := stringifiedSizeOf (if bits ≤ 32 then 32 else if bits ≤ 64 then 64 else 128) src

/-- `StringifiedSize()` for signed types (`write_int_internal.cc:418-440`). -/
def stringifiedSizeSigned (bits : Nat) (src : Int) : Nat :=
  if 0 ≤ src then stringifiedSize bits (absValue bits src) else stringifiedSize bits (absValue bits src) + 1

/-! ## Hexadecimal -/

/-- `WriteHex1Impl()` (`write_int.cc:135-142`). -/
def hex1 (upper : Bool) (src : Nat) : Bytes :=
  [UInt8.ofNat src + (if src < 10 then 48 else (if upper then 65 else 97) - 10)]

/-- `DigitCaseDependent(39, 7)` (`write_int.cc:123-131`). -/
def caseOffset (upper : Bool) : Nat := if upper then 7 else 39

/-- `WriteHex2Impl()` without SSSE3 (`write_int.cc:144-164`), in `uint16_t`, where the intermediate results of `out | (out << 4)` and of
the multiplication are of type `int`. -/
def hex2Plain (upper : Bool) (src : Nat) : Bytes :=
  let out := ((src ||| src <<< 4) &&& 0x0f0f) % 2 ^ 16
  let out := (out + 0x0606) % 2 ^ 16
  let out := (out + caseOffset upper * ((out &&& 0x1010) >>> 4)) % 2 ^ 16
  let out := (out + 0x2a2a) % 2 ^ 16
  (leBytes 2 out).reverse

/-- `WriteHex4Impl()` without SSSE3 (`write_int.cc:166-189`), in `uint32_t`. -/
def hex4Plain (upper : Bool) (src : Nat) : Bytes :=
  let out := ((src ||| (src <<< 12) % 2 ^ 32) &&& 0x0f0f0f0f) % 2 ^ 32
  let out := (out + 0x06060606) % 2 ^ 32
  let out := (out + caseOffset upper * ((out &&& 0x10101010) >>> 4)) % 2 ^ 32
  let out := (out + 0x2a2a2a2a) % 2 ^ 32
  let out := (out <<< 24) % 2 ^ 32 ||| out >>> 24 ||| (out &&& 0x00ffff00)
  leBytes 4 out

/-- `WriteHex8Impl()` without SSSE3 (`write_int.cc:191-200`). -/
def hex8Plain (upper : Bool) (src : Nat) : Bytes := hex4Plain upper ((src >>> 16) % 2 ^ 16) ++ hex4Plain upper (src % 2 ^ 16)

/-- `WriteHex16Impl()` without SSSE3 (`write_int.cc:202-212`). -/
def hex16Plain (upper : Bool) (src : Nat) : Bytes := hex8Plain upper ((src >>> 32) % 2 ^ 32) ++ hex8Plain upper (src % 2 ^ 32)

/-- `HexDigits` (`write_int.cc:41-54`). -/
def hexDigits (upper : Bool) : Bytes :=
  [48, 49, 50, 51, 52, 53, 54, 55, 56, 57] ++ if upper then [65, 66, 67, 68, 69, 70] else [97, 98, 99, 100, 101, 102]

/-- `_mm_srli_epi16()`, `_mm_srli_epi32()`, `_mm_srli_epi64()` by 4 bits, for the first lane, which has the given bytes. -/
def srli4 (lane : Bytes) : Bytes := leBytes lane.length (leNat lane >>> 4)

/-- `_mm_unpacklo_epi8()`. -/
def unpacklo : Bytes → Bytes → Bytes
  | a :: as, b :: bs => a :: b :: unpacklo as bs
  | _, _ => []

/-- `WriteHex2Impl()`, `WriteHex4Impl()`, `WriteHex8Impl()`, `WriteHex16Impl()` with SSSE3 (`write_int.cc:56-119`), for the given number of
bytes: the characters which are then stored. In `WriteHex2Impl()` the lane has 2 bytes, the second of which is 0, and only 2 characters are stored. -/
def hexSse (upper : Bool) (n src : Nat) : Bytes :=
  let value := (leBytes n src).reverse ++ List.replicate (max n 2 - n) 0
  let masked := (unpacklo (srli4 value) value).map (· &&& 0xf)
  (masked.map fun b => (hexDigits upper).getD b.toNat 0).take (2 * n)

/-- `WriteHex2Impl()`, `WriteHex4Impl()`, `WriteHex8Impl()`, `WriteHex16Impl()` (`write_int.cc:144-212`). -/
def hex2 (sse upper : Bool) (src : Nat) : Bytes := if sse then hexSse upper 1 src else hex2Plain upper src
@[inherit_doc hex2] def hex4 (sse upper : Bool) (src : Nat) : Bytes := if sse then hexSse upper 2 src else hex4Plain upper src
@[inherit_doc hex2] def hex8 (sse upper : Bool) (src : Nat) : Bytes := if sse then hexSse upper 4 src else hex8Plain upper src
@[inherit_doc hex2] def hex16 (sse upper : Bool) (src : Nat) : Bytes := if sse then hexSse upper 8 src else hex16Plain upper src

/-- `WriteHex32Impl()` (`write_int.cc:214-218`). -/
def hex32 (sse upper : Bool) (src : Nat) : Bytes := hex16 sse upper (src / 2 ^ 64 % 2 ^ 64) ++ hex16 sse upper (src % 2 ^ 64)

/-- `WriteHexImpl(uint8_t)` (`write_int.cc:223-235`). -/
def hexImpl8 (sse upper : Bool) (src width : Nat) : Bytes :=
  if src < 2 ^ 4 ∧ width ≤ 1 then hex1 upper src
  else List.replicate (if 2 < width then width - 2 else 0) 48 ++ hex2 sse upper src

/-- `WriteHexImpl(uint16_t)`, `WriteHexImpl(uint32_t)`, `WriteHexImpl(uint64_t)` with SSSE3 (`write_int.cc:238-267`, `write_int.cc:270-298`,
`write_int.cc:301-329`), for `n` bytes. -/
def hexImplSse (upper : Bool) (n src width : Nat) : Bytes :=
  let out := hexSse upper n src
  if 2 ^ (8 * n - 4) ≤ src ∨ 2 * n ≤ width then List.replicate (if 2 * n < width then width - 2 * n else 0) 48 ++ out
  else
    let width := max width ((bitWidth (src ||| 1) + 3) / 4)
    (out.drop (2 * n - width)).take width

/-- `WriteHexImpl(uint16_t)` (`write_int.cc:238-267`). -/
def hexImpl16 (sse upper : Bool) (src width : Nat) : Bytes :=
  if sse then hexImplSse upper 2 src width
  else if src ≤ 2 ^ 8 - 1 then hexImpl8 sse upper (src % 2 ^ 8) width
  else hexImpl8 sse upper ((src >>> 8) % 2 ^ 8) (width - 2) ++ hex2 sse upper (src % 2 ^ 8)

/-- `WriteHexImpl(uint32_t)` (`write_int.cc:270-298`). -/
def hexImpl32 (sse upper : Bool) (src width : Nat) : Bytes :=
  if sse then hexImplSse upper 4 src width
  else if src ≤ 2 ^ 16 - 1 then hexImpl16 sse upper (src % 2 ^ 16) width
  else hexImpl16 sse upper ((src >>> 16) % 2 ^ 16) (width - 4) ++ hex4 sse upper (src % 2 ^ 16)

/-- `WriteHexImpl(uint64_t)` (`write_int.cc:301-329`). -/
def hexImpl64 (sse upper : Bool) (src width : Nat) : Bytes :=
  if sse then hexImplSse upper 8 src width
  else if src ≤ 2 ^ 32 - 1 then hexImpl32 sse upper (src % 2 ^ 32) width
  else hexImpl32 sse upper ((src >>> 32) % 2 ^ 32) (width - 8) ++ hex8 sse upper (src % 2 ^ 32)

/-- `WriteHexImpl(absl::uint128)` (`write_int.cc:332-342`). -/
def hexImpl128 (sse upper : Bool) (src width : Nat) : Bytes :=
  if src / 2 ^ 64 % 2 ^ 64 = 0 then hexImpl64 sse upper (src % 2 ^ 64) width
  else hexImpl64 sse upper (src / 2 ^ 64 % 2 ^ 64) (width - 16) ++ hex16 sse upper (src % 2 ^ 64)

/-- The number of digits which `WriteHex2()` etc. write for a type with the given number of bits (`MaxLengthWriteHexUnsignedBackward()`,
`write_int.h:515-522`). -/
def hexMax (bits : Nat) : Nat := if bits ≤ 8 then 2 else if bits ≤ 16 then 4 else if bits ≤ 32 then 8 else if bits ≤ 64 then 16 else 32

/-- `WriteHex2()` ... `WriteHex32()` for a type with the given number of bits. -/
def hexFixed (sse upper : Bool) (bits src : Nat) : Bytes :=
  if bits ≤ 8 then hex2 sse upper src else if bits ≤ 16 then hex4 sse upper src else if bits ≤ 32 then hex8 sse upper src
  else if bits ≤ 64 then hex16 sse upper src else hex32 sse upper src

/-- `WriteHex()` with width; without width the width is 0 (`write_int.cc:388-470`). -/
def writeHex (sse upper : Bool) (bits src width : Nat) : Bytes :=
  if bits ≤ 8 then hexImpl8 sse upper src width else if bits ≤ 16 then hexImpl16 sse upper src width else if bits ≤ 32 then hexImpl32 sse upper src width
  else if bits ≤ 64 then hexImpl64 sse upper src width else hexImpl128 sse upper src width

/-- `WriteHexUnsigned()` (`write_int.h:425-479`). -/
def hexUnsigned (sse upper : Bool) (bits src width : Nat) : Bytes :=
  if width = hexMax bits then hexFixed sse upper bits src
  else if width ≤ 1 then writeHex sse upper bits src 0 else writeHex sse upper bits src width

/-- `HexStringifiedSizeUnsigned()` (`write_int.h:266-308`). -/
def hexSize (bits src : Nat) : Nat :=
  if bits ≤ 8 then (if src < 0x10 then 1 else 2)
  else if bits ≤ 64 then (bitWidth (src ||| 1) + 3) / 4
  else ((if src / 2 ^ 64 = 0 then bitWidth (src % 2 ^ 64 ||| 1) else bitWidth (src / 2 ^ 64) + 64) + 3) / 4

/-- `WriteHexUnsignedBackward()` (`write_int.h:529-583`, `write_int.cc:472-512`): fixed digits are written, and the last ones of them are returned. -/
def hexBack (sse upper : Bool) (bits src width : Nat) : Bytes :=
  (hexFixed sse upper bits src).drop (hexMax bits - max width (hexSize bits src))

/-- `HexStringifiedSizeSigned()` (`write_int.h:310-318`). -/
def hexSizeSigned (bits : Nat) (src : Int) : Nat :=
  if 0 ≤ src then hexSize bits (absValue bits src) else hexSize bits (absValue bits src) + 1

/-! ## `Dec()` and `Hex()` -/

/-- `DecType::Stringify()` for unsigned types (`write_int.h:587-599`). -/
def decStringify (bits value width : Nat) : Bytes :=
  let str := decBack bits value []
  (if str.length < width then List.replicate (width - str.length) 48 else []) ++ str

/-- `DecType::Stringify()` for signed types (`write_int.h:601-632`). -/
def decStringifySigned (bits : Nat) (value : Int) (width : Nat) : Bytes :=
  let str := decBack bits (absValue bits value) []
  if 0 ≤ value then (if str.length < width then List.replicate (width - str.length) 48 else []) ++ str
  else if str.length + 1 < width then [45] ++ List.replicate (width - (str.length + 1)) 48 ++ str
  else 45 :: str

/-- The space which `DecType::WriteTo()` asks for (`write_int.h:634-659`), before writing `decUnsigned` or `decSigned`. For a signed type the
number of value bits is less by 1. -/
def decSpace (bits width : Nat) : Nat := max width (digits10 bits + 1)
@[inherit_doc decSpace] def decSpaceSigned (bits width : Nat) : Nat := max width (digits10 (bits - 1) + 1 + 1)

/-- `DecType::StringifiedSize()` (`write_int.h:661-674`). -/
def decSize (bits value width : Nat) : Nat := max width (stringifiedSize bits value)
@[inherit_doc decSize] def decSizeSigned (bits : Nat) (value : Int) (width : Nat) : Nat := max width (stringifiedSizeSigned bits value)

/-- `HexType::Stringify()` for unsigned types (`write_int.h:676-692`). -/
def hexStringify (sse upper : Bool) (bits value width : Nat) : Bytes :=
  let w := if hexMax bits < width then hexMax bits else width
  (if hexMax bits < width then List.replicate (width - hexMax bits) 48 else []) ++ hexBack sse upper bits value w

/-- `HexType::Stringify()` for signed types (`write_int.h:694-725`). -/
def hexStringifySigned (sse upper : Bool) (bits : Nat) (value : Int) (width : Nat) : Bytes :=
  let v := absValue bits value
  if 0 ≤ value then hexStringify sse upper bits v width
  else if hexMax bits + 1 < width then [45] ++ List.replicate (width - (hexMax bits + 1)) 48 ++ hexBack sse upper bits v (hexMax bits)
  else 45 :: hexBack sse upper bits v (width - 1)

/-- `HexType::WriteTo()` for signed types (`write_int.h:739-761`). For unsigned types it is `hexUnsigned`. -/
def hexSigned (sse upper : Bool) (bits : Nat) (value : Int) (width : Nat) : Bytes :=
  if 0 ≤ value then hexUnsigned sse upper bits (absValue bits value) width
  else 45 :: hexUnsigned sse upper bits (absValue bits value) (width - 1)

/-- The space which `HexType::WriteTo()` asks for (`write_int.h:727-761`). -/
def hexSpace (bits width : Nat) : Nat := max width ((bits + 3) / 4)
@[inherit_doc hexSpace] def hexSpaceSigned (bits width : Nat) : Nat := max width ((bits - 1 + 3) / 4 + 1)

/-- `HexType::StringifiedSize()` (`write_int.h:763-779`). -/
def hexTypeSize (bits value width : Nat) : Nat := if (bits + 3) / 4 ≤ width then width else max width (hexSize bits value)
@[inherit_doc hexTypeSize] def hexTypeSizeSigned (bits : Nat) (value : Int) (width : Nat) : Nat := max width (hexSizeSigned bits value)

end Riegeli.Num
