import Verif.Model.Types
import Verif.Spec.Sha256

/-!
# Official test vectors, run on the model

Tests of the transcription, not proofs; no theorem depends on this file. These are the vectors in
/repo/ssz-rs/tests with short inputs, at most a few per type. A vector is accepted if it decodes,
encodes to itself and has the expected root. (All 1865 vectors in /repo/ssz-rs/tests were run this
way once and agree.)
-/

namespace Ssz.Tests.Vectors

/-- The value of a hexadecimal digit. -/
def nib (c : Char) : Nat := if c.isDigit then c.toNat - 48 else c.toNat - 87

/-- The bytes written in hexadecimal. -/
def hex : List Char → Bytes
  | a :: b :: r => BitVec.ofNat 8 (16 * nib a + nib b) :: hex r
  | _ => []

/-- The body of a generated test: /repo/ssz-rs/tests/basic_vector.rs:19-39 -/
def accepts (t : Ty) (bytes root : String) : Bool :=
  match deserialize (t.impl release).toSerializable (hex bytes.toList) with
  | .ok v =>
    (match serialize (t.impl release).toSerializable v with
      | .ok b => b == hex bytes.toList
      | _ => false) &&
    (match (t.impl release).hashTreeRoot v with
      | .ok r => r.1 == hex root.toList
      | _ => false)
  | _ => false

/-- The body of a generated test that must fail: /repo/ssz-rs/tests/basic_vector.rs:9-17 -/
def rejects (t : Ty) (bytes : String) : Bool :=
  match deserialize (t.impl release).toSerializable (hex bytes.toList) with
  | .ok _ => false
  | _ => true

/-! The structs of /repo/ssz-rs/tests/containers.rs:9-54 -/

def fields : List (String × Ty) → Fields
  | [] => .nil
  | (n, t) :: r => .cons n t (fields r)

def single : Ty := .container (fields [("a", .uint .u8)])
def small : Ty := .container (fields [("a", .uint .u16), ("b", .uint .u16)])
def fixed : Ty := .container (fields [("a", .uint .u8), ("b", .uint .u64), ("c", .uint .u32)])
def var : Ty := .container (fields [("a", .uint .u16), ("b", .list (.uint .u16) 1024), ("c", .uint .u8)])
def complex : Ty := .container (fields [("a", .uint .u16), ("b", .list (.uint .u16) 128),
  ("c", .uint .u8), ("d", .list (.uint .u8) 256), ("e", var), ("f", .vector fixed 4), ("g", .vector var 2)])
def bits : Ty := .container (fields [("a", .bitlist 5), ("b", .bitvector 2), ("c", .bitvector 1),
  ("d", .bitlist 6), ("e", .bitvector 8)])

-- basic_vector_vec_bool_0
#guard rejects (.vector .bool 0)
  ""
-- basic_vector_vec_bool_16_max
#guard accepts (.vector .bool 16)
  "01010101010101010101010101010101"
  "0101010101010101010101010101010100000000000000000000000000000000"
-- basic_vector_vec_bool_16_max_one_byte_less
#guard rejects (.vector .bool 16)
  "010101010101010101010101010101"
-- basic_vector_vec_bool_1_max
#guard accepts (.vector .bool 1)
  "01"
  "0100000000000000000000000000000000000000000000000000000000000000"
-- basic_vector_vec_bool_1_max_one_byte_less
#guard rejects (.vector .bool 1)
  ""
-- basic_vector_vec_bool_2_max
#guard accepts (.vector .bool 2)
  "0101"
  "0101000000000000000000000000000000000000000000000000000000000000"
-- basic_vector_vec_bool_2_max_one_byte_less
#guard rejects (.vector .bool 2)
  "01"
-- basic_vector_vec_bool_31_max
#guard accepts (.vector .bool 31)
  "01010101010101010101010101010101010101010101010101010101010101"
  "0101010101010101010101010101010101010101010101010101010101010100"
-- basic_vector_vec_bool_31_max_one_byte_less
#guard rejects (.vector .bool 31)
  "010101010101010101010101010101010101010101010101010101010101"
-- basic_vector_vec_bool_3_max
#guard accepts (.vector .bool 3)
  "010101"
  "0101010000000000000000000000000000000000000000000000000000000000"
-- basic_vector_vec_bool_3_max_one_byte_less
#guard rejects (.vector .bool 3)
  "0101"
-- basic_vector_vec_bool_4_max
#guard accepts (.vector .bool 4)
  "01010101"
  "0101010100000000000000000000000000000000000000000000000000000000"
-- basic_vector_vec_bool_4_max_one_byte_less
#guard rejects (.vector .bool 4)
  "010101"
-- basic_vector_vec_bool_512_nil
#guard rejects (.vector .bool 512)
  ""
-- basic_vector_vec_bool_513_nil
#guard rejects (.vector .bool 513)
  ""
-- basic_vector_vec_bool_5_max
#guard accepts (.vector .bool 5)
  "0101010101"
  "0101010101000000000000000000000000000000000000000000000000000000"
-- basic_vector_vec_bool_5_max_one_byte_less
#guard rejects (.vector .bool 5)
  "01010101"
-- basic_vector_vec_bool_8_max
#guard accepts (.vector .bool 8)
  "0101010101010101"
  "0101010101010101000000000000000000000000000000000000000000000000"
-- basic_vector_vec_bool_8_max_one_byte_less
#guard rejects (.vector .bool 8)
  "01010101010101"
-- basic_vector_vec_uint_128_0
#guard rejects (.vector (.uint .u128) 0)
  ""
-- basic_vector_vec_uint_128_16_nil
#guard rejects (.vector (.uint .u128) 16)
  ""
-- basic_vector_vec_uint_128_1_max
#guard accepts (.vector (.uint .u128) 1)
  "ffffffffffffffffffffffffffffffff"
  "ffffffffffffffffffffffffffffffff00000000000000000000000000000000"
-- basic_vector_vec_uint_128_1_max_one_byte_less
#guard rejects (.vector (.uint .u128) 1)
  "ffffffffffffffffffffffffffffff"
-- basic_vector_vec_uint_128_2_max
#guard accepts (.vector (.uint .u128) 2)
  "ffffffffffffffffffffffffffffffffffffffffffffffffffffffffffffffff"
  "ffffffffffffffffffffffffffffffffffffffffffffffffffffffffffffffff"
-- basic_vector_vec_uint_128_2_max_one_byte_less
#guard rejects (.vector (.uint .u128) 2)
  "ffffffffffffffffffffffffffffffffffffffffffffffffffffffffffffff"
-- basic_vector_vec_uint_128_31_nil
#guard rejects (.vector (.uint .u128) 31)
  ""
-- basic_vector_vec_uint_128_3_max
#guard accepts (.vector (.uint .u128) 3)
  ("ffffffffffffffffffffffffffffffffffffffffffffffffffffffffffffffffffffffffffffffffffffffffff" ++
   "ffffff")
  "1e3915ef9ca4ed8619d472b72fb1833448756054b4de9acb439da54dff7166aa"
-- basic_vector_vec_uint_128_3_max_one_byte_less
#guard rejects (.vector (.uint .u128) 3)
  "ffffffffffffffffffffffffffffffffffffffffffffffffffffffffffffffffffffffffffffffffffffffffffffff"
-- basic_vector_vec_uint_128_4_max
#guard accepts (.vector (.uint .u128) 4)
  ("ffffffffffffffffffffffffffffffffffffffffffffffffffffffffffffffffffffffffffffffffffffffffff" ++
   "ffffffffffffffffffffffffffffffffffffff")
  "8667e718294e9e0df1d30600ba3eeb201f764aad2dad72748643e4a285e1d1f7"
-- basic_vector_vec_uint_128_4_max_one_byte_less
#guard rejects (.vector (.uint .u128) 4)
  ("ffffffffffffffffffffffffffffffffffffffffffffffffffffffffffffffffffffffffffffffffffffffffff" ++
   "ffffffffffffffffffffffffffffffffffff")
-- basic_vector_vec_uint_128_512_nil
#guard rejects (.vector (.uint .u128) 512)
  ""
-- basic_vector_vec_uint_128_513_nil
#guard rejects (.vector (.uint .u128) 513)
  ""
-- basic_vector_vec_uint_128_5_max
#guard accepts (.vector (.uint .u128) 5)
  ("ffffffffffffffffffffffffffffffffffffffffffffffffffffffffffffffffffffffffffffffffffffffffff" ++
   "ffffffffffffffffffffffffffffffffffffffffffffffffffffffffffffffffffffff")
  "42b2994e8f77b7cc4b05fe01a2d6570ab7d29be54e434582425697ee8cd8f2c2"
-- basic_vector_vec_uint_128_5_max_one_byte_less
#guard rejects (.vector (.uint .u128) 5)
  ("ffffffffffffffffffffffffffffffffffffffffffffffffffffffffffffffffffffffffffffffffffffffffff" ++
   "ffffffffffffffffffffffffffffffffffffffffffffffffffffffffffffffffffff")
-- basic_vector_vec_uint_128_8_nil
#guard rejects (.vector (.uint .u128) 8)
  ""
-- basic_vector_vec_uint_16_0
#guard rejects (.vector (.uint .u16) 0)
  ""
-- basic_vector_vec_uint_16_16_max
#guard accepts (.vector (.uint .u16) 16)
  "ffffffffffffffffffffffffffffffffffffffffffffffffffffffffffffffff"
  "ffffffffffffffffffffffffffffffffffffffffffffffffffffffffffffffff"
-- basic_vector_vec_uint_16_16_max_one_byte_less
#guard rejects (.vector (.uint .u16) 16)
  "ffffffffffffffffffffffffffffffffffffffffffffffffffffffffffffff"
-- basic_vector_vec_uint_16_1_max
#guard accepts (.vector (.uint .u16) 1)
  "ffff"
  "ffff000000000000000000000000000000000000000000000000000000000000"
-- basic_vector_vec_uint_16_1_max_one_byte_less
#guard rejects (.vector (.uint .u16) 1)
  "ff"
-- basic_vector_vec_uint_16_2_max
#guard accepts (.vector (.uint .u16) 2)
  "ffffffff"
  "ffffffff00000000000000000000000000000000000000000000000000000000"
-- basic_vector_vec_uint_16_2_max_one_byte_less
#guard rejects (.vector (.uint .u16) 2)
  "ffffff"
-- basic_vector_vec_uint_16_31_max
#guard accepts (.vector (.uint .u16) 31)
  ("ffffffffffffffffffffffffffffffffffffffffffffffffffffffffffffffffffffffffffffffffffffffffff" ++
   "ffffffffffffffffffffffffffffffffff")
  "43cbd26c37dcff8448ce8896f9b5e553a1047de0c59ec3b477decefbdea9c74b"
-- basic_vector_vec_uint_16_31_max_one_byte_less
#guard rejects (.vector (.uint .u16) 31)
  ("ffffffffffffffffffffffffffffffffffffffffffffffffffffffffffffffffffffffffffffffffffffffffff" ++
   "ffffffffffffffffffffffffffffffff")
-- basic_vector_vec_uint_16_3_max
#guard accepts (.vector (.uint .u16) 3)
  "ffffffffffff"
  "ffffffffffff0000000000000000000000000000000000000000000000000000"
-- basic_vector_vec_uint_16_3_max_one_byte_less
#guard rejects (.vector (.uint .u16) 3)
  "ffffffffff"
-- basic_vector_vec_uint_16_4_max
#guard accepts (.vector (.uint .u16) 4)
  "ffffffffffffffff"
  "ffffffffffffffff000000000000000000000000000000000000000000000000"
-- basic_vector_vec_uint_16_4_max_one_byte_less
#guard rejects (.vector (.uint .u16) 4)
  "ffffffffffffff"
-- basic_vector_vec_uint_16_512_nil
#guard rejects (.vector (.uint .u16) 512)
  ""
-- basic_vector_vec_uint_16_513_nil
#guard rejects (.vector (.uint .u16) 513)
  ""
-- basic_vector_vec_uint_16_5_max
#guard accepts (.vector (.uint .u16) 5)
  "ffffffffffffffffffff"
  "ffffffffffffffffffff00000000000000000000000000000000000000000000"
-- basic_vector_vec_uint_16_5_max_one_byte_less
#guard rejects (.vector (.uint .u16) 5)
  "ffffffffffffffffff"
-- basic_vector_vec_uint_16_8_max
#guard accepts (.vector (.uint .u16) 8)
  "ffffffffffffffffffffffffffffffff"
  "ffffffffffffffffffffffffffffffff00000000000000000000000000000000"
-- basic_vector_vec_uint_16_8_max_one_byte_less
#guard rejects (.vector (.uint .u16) 8)
  "ffffffffffffffffffffffffffffff"
-- basic_vector_vec_uint_256_0
#guard rejects (.vector .u256 0)
  ""
-- basic_vector_vec_uint_256_16_nil
#guard rejects (.vector .u256 16)
  ""
-- basic_vector_vec_uint_256_1_max
#guard accepts (.vector .u256 1)
  "ffffffffffffffffffffffffffffffffffffffffffffffffffffffffffffffff"
  "ffffffffffffffffffffffffffffffffffffffffffffffffffffffffffffffff"
-- basic_vector_vec_uint_256_1_max_one_byte_less
#guard rejects (.vector .u256 1)
  "ffffffffffffffffffffffffffffffffffffffffffffffffffffffffffffff"
-- basic_vector_vec_uint_256_2_max
#guard accepts (.vector .u256 2)
  ("ffffffffffffffffffffffffffffffffffffffffffffffffffffffffffffffffffffffffffffffffffffffffff" ++
   "ffffffffffffffffffffffffffffffffffffff")
  "8667e718294e9e0df1d30600ba3eeb201f764aad2dad72748643e4a285e1d1f7"
-- basic_vector_vec_uint_256_2_max_one_byte_less
#guard rejects (.vector .u256 2)
  ("ffffffffffffffffffffffffffffffffffffffffffffffffffffffffffffffffffffffffffffffffffffffffff" ++
   "ffffffffffffffffffffffffffffffffffff")
-- basic_vector_vec_uint_256_31_nil
#guard rejects (.vector .u256 31)
  ""
-- basic_vector_vec_uint_256_3_max
#guard accepts (.vector .u256 3)
  ("ffffffffffffffffffffffffffffffffffffffffffffffffffffffffffffffffffffffffffffffffffffffffff" ++
   "ffffffffffffffffffffffffffffffffffffffffffffffffffffffffffffffffffffffffffffffffffffffffff" ++
   "ffffffffffff")
  "4a6ba660d16b4dde152d00ba82cdde34827411f341c56b102e7962410924ad36"
-- basic_vector_vec_uint_256_3_max_one_byte_less
#guard rejects (.vector .u256 3)
  ("ffffffffffffffffffffffffffffffffffffffffffffffffffffffffffffffffffffffffffffffffffffffffff" ++
   "ffffffffffffffffffffffffffffffffffffffffffffffffffffffffffffffffffffffffffffffffffffffffff" ++
   "ffffffffff")
-- basic_vector_vec_uint_256_4_max_one_less
#guard rejects (.vector .u256 4)
  ("ffffffffffffffffffffffffffffffffffffffffffffffffffffffffffffffffffffffffffffffffffffffffff" ++
   "ffffffffffffffffffffffffffffffffffffffffffffffffffffffffffffffffffffffffffffffffffffffffff" ++
   "ffffffffffff")
-- basic_vector_vec_uint_256_512_nil
#guard rejects (.vector .u256 512)
  ""
-- basic_vector_vec_uint_256_513_nil
#guard rejects (.vector .u256 513)
  ""
-- basic_vector_vec_uint_256_5_nil
#guard rejects (.vector .u256 5)
  ""
-- basic_vector_vec_uint_256_8_nil
#guard rejects (.vector .u256 8)
  ""
-- basic_vector_vec_uint_32_0
#guard rejects (.vector (.uint .u32) 0)
  ""
-- basic_vector_vec_uint_32_16_max
#guard accepts (.vector (.uint .u32) 16)
  ("ffffffffffffffffffffffffffffffffffffffffffffffffffffffffffffffffffffffffffffffffffffffffff" ++
   "ffffffffffffffffffffffffffffffffffffff")
  "8667e718294e9e0df1d30600ba3eeb201f764aad2dad72748643e4a285e1d1f7"
-- basic_vector_vec_uint_32_16_max_one_byte_less
#guard rejects (.vector (.uint .u32) 16)
  ("ffffffffffffffffffffffffffffffffffffffffffffffffffffffffffffffffffffffffffffffffffffffffff" ++
   "ffffffffffffffffffffffffffffffffffff")
-- basic_vector_vec_uint_32_1_max
#guard accepts (.vector (.uint .u32) 1)
  "ffffffff"
  "ffffffff00000000000000000000000000000000000000000000000000000000"
-- basic_vector_vec_uint_32_1_max_one_byte_less
#guard rejects (.vector (.uint .u32) 1)
  "ffffff"
-- basic_vector_vec_uint_32_2_max
#guard accepts (.vector (.uint .u32) 2)
  "ffffffffffffffff"
  "ffffffffffffffff000000000000000000000000000000000000000000000000"
-- basic_vector_vec_uint_32_2_max_one_byte_less
#guard rejects (.vector (.uint .u32) 2)
  "ffffffffffffff"
-- basic_vector_vec_uint_32_31_nil
#guard rejects (.vector (.uint .u32) 31)
  ""
-- basic_vector_vec_uint_32_3_max
#guard accepts (.vector (.uint .u32) 3)
  "ffffffffffffffffffffffff"
  "ffffffffffffffffffffffff0000000000000000000000000000000000000000"
-- basic_vector_vec_uint_32_3_max_one_byte_less
#guard rejects (.vector (.uint .u32) 3)
  "ffffffffffffffffffffff"
-- basic_vector_vec_uint_32_4_max
#guard accepts (.vector (.uint .u32) 4)
  "ffffffffffffffffffffffffffffffff"
  "ffffffffffffffffffffffffffffffff00000000000000000000000000000000"
-- basic_vector_vec_uint_32_4_max_one_byte_less
#guard rejects (.vector (.uint .u32) 4)
  "ffffffffffffffffffffffffffffff"
-- basic_vector_vec_uint_32_512_nil
#guard rejects (.vector (.uint .u32) 512)
  ""
-- basic_vector_vec_uint_32_513_nil
#guard rejects (.vector (.uint .u32) 513)
  ""
-- basic_vector_vec_uint_32_5_max
#guard accepts (.vector (.uint .u32) 5)
  "ffffffffffffffffffffffffffffffffffffffff"
  "ffffffffffffffffffffffffffffffffffffffff000000000000000000000000"
-- basic_vector_vec_uint_32_5_max_one_byte_less
#guard rejects (.vector (.uint .u32) 5)
  "ffffffffffffffffffffffffffffffffffffff"
-- basic_vector_vec_uint_32_8_max
#guard accepts (.vector (.uint .u32) 8)
  "ffffffffffffffffffffffffffffffffffffffffffffffffffffffffffffffff"
  "ffffffffffffffffffffffffffffffffffffffffffffffffffffffffffffffff"
-- basic_vector_vec_uint_32_8_max_one_byte_less
#guard rejects (.vector (.uint .u32) 8)
  "ffffffffffffffffffffffffffffffffffffffffffffffffffffffffffffff"
-- basic_vector_vec_uint_64_0
#guard rejects (.vector (.uint .u64) 0)
  ""
-- basic_vector_vec_uint_64_16_nil
#guard rejects (.vector (.uint .u64) 16)
  ""
-- basic_vector_vec_uint_64_1_max
#guard accepts (.vector (.uint .u64) 1)
  "ffffffffffffffff"
  "ffffffffffffffff000000000000000000000000000000000000000000000000"
-- basic_vector_vec_uint_64_1_max_one_byte_less
#guard rejects (.vector (.uint .u64) 1)
  "ffffffffffffff"
-- basic_vector_vec_uint_64_2_max
#guard accepts (.vector (.uint .u64) 2)
  "ffffffffffffffffffffffffffffffff"
  "ffffffffffffffffffffffffffffffff00000000000000000000000000000000"
-- basic_vector_vec_uint_64_2_max_one_byte_less
#guard rejects (.vector (.uint .u64) 2)
  "ffffffffffffffffffffffffffffff"
-- basic_vector_vec_uint_64_31_nil
#guard rejects (.vector (.uint .u64) 31)
  ""
-- basic_vector_vec_uint_64_3_max
#guard accepts (.vector (.uint .u64) 3)
  "ffffffffffffffffffffffffffffffffffffffffffffffff"
  "ffffffffffffffffffffffffffffffffffffffffffffffff0000000000000000"
-- basic_vector_vec_uint_64_3_max_one_byte_less
#guard rejects (.vector (.uint .u64) 3)
  "ffffffffffffffffffffffffffffffffffffffffffffff"
-- basic_vector_vec_uint_64_4_max
#guard accepts (.vector (.uint .u64) 4)
  "ffffffffffffffffffffffffffffffffffffffffffffffffffffffffffffffff"
  "ffffffffffffffffffffffffffffffffffffffffffffffffffffffffffffffff"
-- basic_vector_vec_uint_64_4_max_one_byte_less
#guard rejects (.vector (.uint .u64) 4)
  "ffffffffffffffffffffffffffffffffffffffffffffffffffffffffffffff"
-- basic_vector_vec_uint_64_512_nil
#guard rejects (.vector (.uint .u64) 512)
  ""
-- basic_vector_vec_uint_64_513_nil
#guard rejects (.vector (.uint .u64) 513)
  ""
-- basic_vector_vec_uint_64_5_max
#guard accepts (.vector (.uint .u64) 5)
  "ffffffffffffffffffffffffffffffffffffffffffffffffffffffffffffffffffffffffffffffff"
  "f0b46c4ab8cd5720de9457addeff0a7267e475c09fd5abb6661e32faf9dd30cd"
-- basic_vector_vec_uint_64_5_max_one_byte_less
#guard rejects (.vector (.uint .u64) 5)
  "ffffffffffffffffffffffffffffffffffffffffffffffffffffffffffffffffffffffffffffff"
-- basic_vector_vec_uint_64_8_max
#guard accepts (.vector (.uint .u64) 8)
  ("ffffffffffffffffffffffffffffffffffffffffffffffffffffffffffffffffffffffffffffffffffffffffff" ++
   "ffffffffffffffffffffffffffffffffffffff")
  "8667e718294e9e0df1d30600ba3eeb201f764aad2dad72748643e4a285e1d1f7"
-- basic_vector_vec_uint_64_8_max_one_byte_less
#guard rejects (.vector (.uint .u64) 8)
  ("ffffffffffffffffffffffffffffffffffffffffffffffffffffffffffffffffffffffffffffffffffffffffff" ++
   "ffffffffffffffffffffffffffffffffffff")
-- basic_vector_vec_uint_8_0
#guard rejects (.vector (.uint .u8) 0)
  ""
-- basic_vector_vec_uint_8_16_max
#guard accepts (.vector (.uint .u8) 16)
  "ffffffffffffffffffffffffffffffff"
  "ffffffffffffffffffffffffffffffff00000000000000000000000000000000"
-- basic_vector_vec_uint_8_16_max_one_byte_less
#guard rejects (.vector (.uint .u8) 16)
  "ffffffffffffffffffffffffffffff"
-- basic_vector_vec_uint_8_1_max
#guard accepts (.vector (.uint .u8) 1)
  "ff"
  "ff00000000000000000000000000000000000000000000000000000000000000"
-- basic_vector_vec_uint_8_1_max_one_byte_less
#guard rejects (.vector (.uint .u8) 1)
  ""
-- basic_vector_vec_uint_8_2_max
#guard accepts (.vector (.uint .u8) 2)
  "ffff"
  "ffff000000000000000000000000000000000000000000000000000000000000"
-- basic_vector_vec_uint_8_2_max_one_byte_less
#guard rejects (.vector (.uint .u8) 2)
  "ff"
-- basic_vector_vec_uint_8_31_max
#guard accepts (.vector (.uint .u8) 31)
  "ffffffffffffffffffffffffffffffffffffffffffffffffffffffffffffff"
  "ffffffffffffffffffffffffffffffffffffffffffffffffffffffffffffff00"
-- basic_vector_vec_uint_8_31_max_one_byte_less
#guard rejects (.vector (.uint .u8) 31)
  "ffffffffffffffffffffffffffffffffffffffffffffffffffffffffffff"
-- basic_vector_vec_uint_8_3_max
#guard accepts (.vector (.uint .u8) 3)
  "ffffff"
  "ffffff0000000000000000000000000000000000000000000000000000000000"
-- basic_vector_vec_uint_8_3_max_one_byte_less
#guard rejects (.vector (.uint .u8) 3)
  "ffff"
-- basic_vector_vec_uint_8_4_max
#guard accepts (.vector (.uint .u8) 4)
  "ffffffff"
  "ffffffff00000000000000000000000000000000000000000000000000000000"
-- basic_vector_vec_uint_8_4_max_one_byte_less
#guard rejects (.vector (.uint .u8) 4)
  "ffffff"
-- basic_vector_vec_uint_8_512_nil
#guard rejects (.vector (.uint .u8) 512)
  ""
-- basic_vector_vec_uint_8_513_nil
#guard rejects (.vector (.uint .u8) 513)
  ""
-- basic_vector_vec_uint_8_5_max
#guard accepts (.vector (.uint .u8) 5)
  "ffffffffff"
  "ffffffffff000000000000000000000000000000000000000000000000000000"
-- basic_vector_vec_uint_8_5_max_one_byte_less
#guard rejects (.vector (.uint .u8) 5)
  "ffffffff"
-- basic_vector_vec_uint_8_8_max
#guard accepts (.vector (.uint .u8) 8)
  "ffffffffffffffff"
  "ffffffffffffffff000000000000000000000000000000000000000000000000"
-- basic_vector_vec_uint_8_8_max_one_byte_less
#guard rejects (.vector (.uint .u8) 8)
  "ffffffffffffff"
-- bitlist_bitlist_16_lengthy_0
#guard accepts (.bitlist 16)
  "a05c01"
  "6232812aa34ca3e9ce77374f8915f059832b1671edbbe38e8816196b2be450d5"
-- bitlist_bitlist_1_but_2
#guard rejects (.bitlist 1)
  "07"
-- bitlist_bitlist_1_lengthy_0
#guard accepts (.bitlist 1)
  "03"
  "56d8a66fbae0300efba7ec2c531973aaae22e7a2ed6ded081b5b32d07a32780a"
-- bitlist_bitlist_2_but_3
#guard rejects (.bitlist 2)
  "0e"
-- bitlist_bitlist_2_lengthy_0
#guard accepts (.bitlist 2)
  "07"
  "c397e31994d6b872c69af43765ab16a1cef673be726a820dacd2637bea2f5fbb"
-- bitlist_bitlist_31_lengthy_0
#guard accepts (.bitlist 31)
  "046bf5f4"
  "2b4e175a3cabe516e47026098d7a07a105d94c6e1d7859c5f8e99d81d5fb73e5"
-- bitlist_bitlist_32_but_33
#guard rejects (.bitlist 32)
  "6ac5ef8f02"
-- bitlist_bitlist_3_but_4
#guard rejects (.bitlist 3)
  "15"
-- bitlist_bitlist_3_lengthy_0
#guard accepts (.bitlist 3)
  "08"
  "d86ae2ca925345bf2412bde450ac175742d979c1ea7b961bd1efe10beb9500cf"
-- bitlist_bitlist_4_but_5
#guard rejects (.bitlist 4)
  "2c"
-- bitlist_bitlist_4_lengthy_0
#guard accepts (.bitlist 4)
  "1b"
  "9d2816f451512382c000156fad1578555537321084d091d3c7b228aa705c36aa"
-- bitlist_bitlist_512_but_513
#guard rejects (.bitlist 512)
  ("18242983c434030dce1ed1e653d95834fe02ca853601cd06a19776207100daa547f42cc15a3d3d835899ee56d3" ++
   "4ac92926b5c6ba91f7c8c173935c02a545172003")
-- bitlist_bitlist_512_lengthy_0
#guard accepts (.bitlist 512)
  ("0029809c412c98d591f9e70336b0a114f5f8c920ae327bf3de64048207c61f1aea9253d0c27afa73380d0f8539" ++
   "c87c7a49aacf1fc23f88894384e288d618588001")
  "bc152fc83f6fefea40b3b3fdf626dc1af7eaea74e6bce7aba12a6602679004e1"
-- bitlist_bitlist_513_lengthy_0
#guard accepts (.bitlist 513)
  ("686c9352f70a29ec51ff77910c3f7c8315d3c47da1f2dec19c8544ae11ee082598984919148ac10e42ffe6dbf9" ++
   "c9dde63a0958907af2c86478fdc3b64ef03ea103")
  "77184930e328732d5413240f6114e269a9df6573d8b177f03d328eda7d3ffae2"
-- bitlist_bitlist_5_but_6
#guard rejects (.bitlist 5)
  "57"
-- bitlist_bitlist_5_lengthy_0
#guard accepts (.bitlist 5)
  "24"
  "bd50456d5ad175ae99a1612a53ca229124b65d3eaabd9ff9c7ab979a385cf6b3"
-- bitlist_bitlist_8_but_9
#guard rejects (.bitlist 8)
  "f703"
-- bitlist_bitlist_8_lengthy_0
#guard accepts (.bitlist 8)
  "ce01"
  "095847dd477b5ac2b2a5930d0633975f09e835630c2d4a832b6469e8c0d106d1"
-- bitlist_bitlist_no_delimiter_empty
#guard rejects (.bitlist 256)
  ""
-- bitvector_bitvec_0
#guard rejects (.bitvector 0)
  ""
-- bitvector_bitvec_16_max
#guard accepts (.bitvector 16)
  "ffff"
  "ffff000000000000000000000000000000000000000000000000000000000000"
-- bitvector_bitvec_16_max_8
#guard rejects (.bitvector 16)
  "ff"
-- bitvector_bitvec_1_max
#guard accepts (.bitvector 1)
  "01"
  "0100000000000000000000000000000000000000000000000000000000000000"
-- bitvector_bitvec_1_max_2
#guard rejects (.bitvector 1)
  "03"
-- bitvector_bitvec_2_max
#guard accepts (.bitvector 2)
  "03"
  "0300000000000000000000000000000000000000000000000000000000000000"
-- bitvector_bitvec_2_max_3
#guard rejects (.bitvector 2)
  "07"
-- bitvector_bitvec_31_max
#guard accepts (.bitvector 31)
  "ffffff7f"
  "ffffff7f00000000000000000000000000000000000000000000000000000000"
-- bitvector_bitvec_32_max_33
#guard rejects (.bitvector 32)
  "ffffffff01"
-- bitvector_bitvec_3_max
#guard accepts (.bitvector 3)
  "07"
  "0700000000000000000000000000000000000000000000000000000000000000"
-- bitvector_bitvec_3_max_4
#guard rejects (.bitvector 3)
  "0f"
-- bitvector_bitvec_4_max
#guard accepts (.bitvector 4)
  "0f"
  "0f00000000000000000000000000000000000000000000000000000000000000"
-- bitvector_bitvec_4_max_5
#guard rejects (.bitvector 4)
  "1f"
-- bitvector_bitvec_512_max
#guard accepts (.bitvector 512)
  ("ffffffffffffffffffffffffffffffffffffffffffffffffffffffffffffffffffffffffffffffffffffffffff" ++
   "ffffffffffffffffffffffffffffffffffffff")
  "8667e718294e9e0df1d30600ba3eeb201f764aad2dad72748643e4a285e1d1f7"
-- bitvector_bitvec_512_max_513
#guard rejects (.bitvector 512)
  ("ffffffffffffffffffffffffffffffffffffffffffffffffffffffffffffffffffffffffffffffffffffffffff" ++
   "ffffffffffffffffffffffffffffffffffffff01")
-- bitvector_bitvec_513_max
#guard accepts (.bitvector 513)
  ("ffffffffffffffffffffffffffffffffffffffffffffffffffffffffffffffffffffffffffffffffffffffffff" ++
   "ffffffffffffffffffffffffffffffffffffff01")
  "222dd9eebc6467de9788eb1c05ce9c2da8ecc89abdd38810925ce061d91236ef"
-- bitvector_bitvec_5_max
#guard accepts (.bitvector 5)
  "1f"
  "1f00000000000000000000000000000000000000000000000000000000000000"
-- bitvector_bitvec_5_max_6
#guard rejects (.bitvector 5)
  "3f"
-- bitvector_bitvec_8_max
#guard accepts (.bitvector 8)
  "ff"
  "ff00000000000000000000000000000000000000000000000000000000000000"
-- bitvector_bitvec_8_max_9
#guard rejects (.bitvector 8)
  "ff01"
-- bitvector_bitvec_9_max_8
#guard rejects (.bitvector 9)
  "ff"
-- boolean_byte_0_x_80
#guard rejects .bool
  "80"
-- boolean_false
#guard accepts .bool
  "00"
  "0000000000000000000000000000000000000000000000000000000000000000"
-- containers_bits_struct_extra_byte
#guard rejects bits
  "0b00000001000c00000085257bff"
-- containers_bits_struct_lengthy_0
#guard accepts bits
  "0b00000002000c000000652e5e"
  "9c6ecf69a7358d02abee9eb030842f538e13cf10d67747887f0e536fe4eb791f"
-- containers_bits_struct_lengthy_1
#guard accepts bits
  "0b00000001010c000000b33f69"
  "e60c419e4e47a1b6ef55da0450fdba5b8b6d9e8c8a1ddf913aad21c1faf6bb61"
-- containers_bits_struct_lengthy_2
#guard accepts bits
  "0b00000000000c000000763c55"
  "4a082a227bdfdf5f1b7ebd49d0d4cdf7e8408c789d3fb7c0fe864c76df8e24fc"
-- containers_bits_struct_lengthy_3
#guard accepts bits
  "0b00000001000c000000243240"
  "d843398a3d7f8a24411eb830f22fac7c9717599712f914de6dac35eaccfdc1a7"
-- containers_bits_struct_lengthy_4
#guard accepts bits
  "0b00000001000c0000003d2f4b"
  "a57212943eb47330d7a46286317233228ea24753830d7f535c9f3539da05c221"
-- containers_bits_struct_lengthy_5
#guard accepts bits
  "0b00000000010c000000a4295b"
  "2f71110caf7d5cacae796b3ddeeb74b43390f33c06e1587b794b7872b5e6bbd9"
-- containers_bits_struct_lengthy_6
#guard accepts bits
  "0b00000000010c000000223479"
  "1d2a640e0bd2c88f0e39fe04acac9ccab6023295f82442fbcb8f437cd5958928"
-- containers_bits_struct_lengthy_7
#guard accepts bits
  "0b00000003000c0000002b356a"
  "f1355a89ade8334350d4d958939abf8c912e13680583a94614f6f579fa7cf321"
-- containers_bits_struct_lengthy_last_offset_0_overflow
#guard rejects bits
  "0b00000001010c0000007736630b00"
-- containers_bits_struct_lengthy_last_offset_10_overflow
#guard rejects bits
  "0b00000001010c0000002833450b00"
-- containers_bits_struct_lengthy_last_offset_6_overflow
#guard rejects bits
  "0b00000003010c0000007a3f6b0b00"
-- containers_bits_struct_lengthy_offset_0_minus_one
#guard rejects bits
  "0a00000001000c000000e73977"
-- containers_bits_struct_lengthy_offset_0_plus_one
#guard rejects bits
  "0c00000003010c00000070265d"
-- containers_bits_struct_lengthy_offset_0_zeroed
#guard rejects bits
  "0000000001000c000000c72157"
-- containers_bits_struct_lengthy_offset_10_plus_one
#guard rejects bits
  "0b00000000000c000000fc3f7f00"
-- containers_complex_test_struct_nil_0
#guard accepts complex
  ("1d4c47000000b44700000047000000a5054fd7f8f58dfa6f6583c7873dba8c1ba1760aa49fd37c2aea77dc2e1f" ++
   "f69cf264a9c65c7a184ccace3dfaf1035d462b9a40414e0000002836070000008d080000000f00000017510700" ++
   "0000b1f40007000000ea")
  "05bb1882d46575e2bc5dc7148051bf464e4df6f271a31321001e857c7895bacf"
-- containers_complex_test_struct_nil_1
#guard accepts complex
  ("767c47000000824700000047000000e0adc30c55afdd567549773b12c1709747b33a8ef73f30d61c72b1065863" ++
   "cef465d324c6305b6b69fe344888c3139dfd623c06aa4e0000000eed070000006f080000000f000000d7d50700" ++
   "0000d281ca070000009d")
  "58ee3514728894b03c5099a22a571ecd725755466df364bf7a57e7b28a3a5a0d"
-- containers_complex_test_struct_nil_2
#guard accepts complex
  ("9c5a4700000071470000004700000028849e97ae3de47e602634f84dd04d65bd2a75f03bb18a8291405c35c7c7" ++
   "22fd28bc2240ffc4b100582a575b08cedb3b929244644e000000d3180700000056080000000f00000007e90700" ++
   "0000a017e807000000d2")
  "200f6d4be8b29aa0f833d63639119d08eae8acacc527047690318e25819d7239"
-- containers_complex_test_struct_nil_3
#guard accepts complex
  ("a9ed47000000bb4700000047000000175e342159213fd4da749f0f7b17b33012a351a141be6d561cfee77fb4b3" ++
   "31d51de503b47989dc9bd86cf6a1eb39a4cc5d320d7a4e0000009b0f0700000039080000000f00000060b50700" ++
   "00006ffe650700000074")
  "620f18ab8fddf91e5207f8887d9761be6fb672c4a57d01fa4962604c4d812fad"
-- containers_complex_test_struct_nil_4
#guard accepts complex
  ("365547000000044700000047000000350e6c1471a72cd5f128908583a2716505a72b2bb53e79bda2a437ad73e3" ++
   "88af94964dccf9eb89d6893a9dc843bbb724de59b21a4e000000db020700000057080000000f00000094930700" ++
   "00009f674b0700000003")
  "c75a13f8ba4d56d78324313bc49f15de88dc7b23c8a19b96bde8092a9bb70b83"
-- containers_complex_test_struct_nil_5
#guard accepts complex
  ("dd61470000003a4700000047000000f520cf11679ee8783b764bc105761981dd50bbbcd005a6fb0b8ee25753ed" ++
   "3378bf831baec6f11772f37d1d2d329a799fa9f5b9ae4e00000046aa07000000a0080000000f00000011130700" ++
   "00008937d80700000016")
  "6ef0e14dc6f46f40c86d65c94c29afa89f2dde63f2b2931e64bf820900b0755d"
-- containers_complex_test_struct_nil_6
#guard accepts complex
  ("13c147000000264700000047000000b603c88c3ffb66c743074cbe078768241caac0ff0aecb2bcb038659757c2" ++
   "fcea2ac774ee02e9a6ec2cd3947dd6d24ebd79dee5244e000000fe9107000000b2080000000f0000006df80700" ++
   "00009697bd07000000ae")
  "0b1c17953fafada3820c7a59db020154d0f5f1d4b06b772c4db16230c9d77a9d"
-- containers_complex_test_struct_nil_7
#guard accepts complex
  ("910f47000000d74700000047000000965ebc31a6b6a754d870a3b371f0e197029b4a5d3be6b81725c692abff3e" ++
   "224e73145ea440f93e44408eee66fcc9d3f15931a5194e000000aef4070000006c080000000f0000006faa0700" ++
   "00006a477f0700000009")
  "9b967a5a3ba0e36a9e065908ea5aed331d03f8f17228ec7583071c4fd7a279ff"
-- containers_complex_test_struct_nil_offset_11_plus_one
#guard rejects complex
  ("7c7047000000f947000000480000002b8e0ff9664f9dc3de0253a8b136af6655e5402d765aa20cdd455cf91d3c" ++
   "e005aa229362d6034ea8e56c42dc82da1898f40b52fb4e0000007cff0700000099080000000f0000002fe80700" ++
   "00002141690700000009")
-- containers_complex_test_struct_nil_offset_11_zeroed
#guard rejects complex
  ("01b347000000224700000000000000ea15c4ed355c597cd2b53fba743895c93a9da02f33638c4176da6c08f50e" ++
   "d13547acc32350b253177ab2beb24a886bebb1c67bd34e000000084007000000f5080000000f0000002c410700" ++
   "0000315dfc070000008c")
-- containers_complex_test_struct_nil_offset_2_minus_one
#guard rejects complex
  ("ef88460000009d47000000470000004fc9cdf86ad18c8e7beff55b7e68cf8c3a743dc94ba4ab0ea7e1a2bf98c8" ++
   "61a5e4c5a013cb1c7efc344e217e2bdba299a660318e4e0000002d2e0700000086080000000f00000029f30700" ++
   "0000e28f1d0700000041")
-- containers_complex_test_struct_nil_offset_2_plus_one
#guard rejects complex
  ("78ec480000009047000000470000006b71779705f8f9580e310e5cdf68c1e1d66266f13f10ade8a7a71e9592c7" ++
   "4493c1e293937d28781073183610634dd8970e33bca64e000000a31b070000004c080000000f0000006d020700" ++
   "000053fbb20700000025")
-- containers_complex_test_struct_nil_offset_2_zeroed
#guard rejects complex
  ("704800000000f04700000047000000549a0daf2164e627a6ac4e226249b201f2d5b0553ba3bfda7c2dc5ec3ceb" ++
   "54fcaf1b9265f11e4dcaca3c5589e5544a25d4dd53834e000000db26070000005d080000000f000000eeb40700" ++
   "0000f092a70700000022")
-- containers_complex_test_struct_nil_offset_7_plus_one
#guard rejects complex
  ("fae9470000008f48000000470000009139a6fc4ba0bf31c79d33998941587328b84f54647941a97be82d776661" ++
   "7b8f177a10a27e65bb7aee2ca086658400e7cef38bc74e000000ceb70700000093080000000f0000001e170700" ++
   "0000b7aa34070000007e")
-- containers_complex_test_struct_nil_offset_7_zeroed
#guard rejects complex
  ("4fe2470000004e000000004700000083ac7e910fe8d3c7b635a71bfdd85e9ebbc92aada5476572b3500646ec6c" ++
   "3839b6264845f735e2f639a6f90075371c6bb1400bf04e000000a63b070000004c080000000f00000008150700" ++
   "0000a0deb3070000003c")
-- containers_fixed_test_struct_extra_byte
#guard rejects fixed
  "2ebdb597ced9dd0c95c6f97c15ff"
-- containers_fixed_test_struct_max
#guard accepts fixed
  "ffffffffffffffffffffffffff"
  "3925681862db7892428eac4afae08671930e623601b5b85fbbc366371e29acd7"
-- containers_fixed_test_struct_max_chaos_0
#guard accepts fixed
  "009a22eee2b49629e376602ccc"
  "f9da7cee7f59d318ddece7744f9d57038776dcd2cb84ec1487df7810ab855eb8"
-- containers_fixed_test_struct_max_chaos_1
#guard accepts fixed
  "d700000000000000007fd60834"
  "775dcfb6a6f9ca7b3cc6e1a705c6892d46f88448ff5a32a139e17d5147c35f20"
-- containers_fixed_test_struct_max_chaos_2
#guard accepts fixed
  "ffdb90f178552a715500000000"
  "a2302ab770b50379d8a20013864f1ce653d180241a54a23e57413cb63b63148b"
-- containers_fixed_test_struct_random_0
#guard accepts fixed
  "18301fdb11ff83bbb6ab35c82b"
  "2f104507507c20439914e44dbbc82ab18c9c506cadbe96c33b136f3a4ff0f182"
-- containers_fixed_test_struct_random_1
#guard accepts fixed
  "1f29858f37dba0370a9e990c53"
  "f157cd7285b6607caac863911709648c432059be3cc3ccd7e7efbbd0abdf2cb0"
-- containers_fixed_test_struct_random_2
#guard accepts fixed
  "c3a39dc0a10012cbebba9b0a6c"
  "adcb9275cf22b9fbe5a8ef1372336712f9402e335e3b4e085400955909f5b463"
-- containers_fixed_test_struct_random_3
#guard accepts fixed
  "4d447cb9d6d2135b888d08acc3"
  "a31d9957f3f5c3f46bbc9916d92ac481f13a9d86df14c5960ea82d05c4930bfc"
-- containers_single_field_test_struct_extra_byte
#guard rejects single
  "e1ff"
-- containers_single_field_test_struct_max
#guard accepts single
  "ff"
  "ff00000000000000000000000000000000000000000000000000000000000000"
-- containers_single_field_test_struct_max_chaos_0
#guard accepts single
  "f7"
  "f700000000000000000000000000000000000000000000000000000000000000"
-- containers_single_field_test_struct_max_chaos_1
#guard accepts single
  "4c"
  "4c00000000000000000000000000000000000000000000000000000000000000"
-- containers_single_field_test_struct_max_chaos_2
#guard accepts single
  "00"
  "0000000000000000000000000000000000000000000000000000000000000000"
-- containers_single_field_test_struct_random_0
#guard accepts single
  "3a"
  "3a00000000000000000000000000000000000000000000000000000000000000"
-- containers_single_field_test_struct_random_1
#guard accepts single
  "07"
  "0700000000000000000000000000000000000000000000000000000000000000"
-- containers_single_field_test_struct_random_2
#guard accepts single
  "f9"
  "f900000000000000000000000000000000000000000000000000000000000000"
-- containers_single_field_test_struct_random_3
#guard accepts single
  "7f"
  "7f00000000000000000000000000000000000000000000000000000000000000"
-- containers_small_test_struct_extra_byte
#guard rejects small
  "d33bd503ff"
-- containers_small_test_struct_max
#guard accepts small
  "ffffffff"
  "5ee8ff3d8661977c818a2d7f926019872cfef9cf4270b99ff833160f41fc01ec"
-- containers_small_test_struct_max_chaos_0
#guard accepts small
  "206e0000"
  "006805ecbb4e3f031d5ce707ce5617e4944e1962212f655c71dcfffcb3aae99b"
-- containers_small_test_struct_max_chaos_1
#guard accepts small
  "ffff4f48"
  "32c367f05a28d3f374ac725e7b9f3ea466012c486d2cb2afc47bbe615e513c4a"
-- containers_small_test_struct_max_chaos_2
#guard accepts small
  "ffff4514"
  "8067c7c9cc558dcc9ea3ae383b60db9e1ad5cb1dbff54b0460ca7f942ebfd6a7"
-- containers_small_test_struct_random_0
#guard accepts small
  "1ed5b68d"
  "ab1a70fc42d5926b912ae7f68ec3aba10e8e99415e9863b2e4ca39b4c0c42685"
-- containers_small_test_struct_random_1
#guard accepts small
  "9514cc5a"
  "78d69e508cfe68f18cf7245e073e0606536efb5e89dee7c2cf9287ca1cc2faf7"
-- containers_small_test_struct_random_2
#guard accepts small
  "188b234f"
  "3f57db803a4eb733537fd43e3c3e05b19011e478879d00efafb82c309efc3884"
-- containers_small_test_struct_random_3
#guard accepts small
  "bd99214f"
  "e4e0fd2c3fd96d28c58544b4ed004137777a86ec9c0e66438706b02e5f518f48"
-- containers_var_test_struct_lengthy_chaos_1
#guard accepts var
  "070607000000dc13ca"
  "ee381964ccbada8328e12c5b1f25b3c47ad1930cb99d9d4e1be20bc0a7e3e143"
-- containers_var_test_struct_lengthy_chaos_2
#guard accepts var
  "da780700000000"
  "c2ab319d105839cf5f2740dca530f09f84f06feef99e5c8672811cc0a554fd54"
-- containers_var_test_struct_max_4
#guard accepts var
  ("ffff07000000ffffffffffffffffffffffffffffffffffffffffffffffffffffffffffffffffffffffffffffff" ++
   "ffffffffffffffffffffffffffffffffffffffffffffffffffffffffffffffffffffffffffffffffffffffffff" ++
   "ffffffffffffff")
  "fa233782570411ce535e4d9fdb537990d5f40437d2d85d463ca3e7dad4a74d9f"
-- containers_var_test_struct_max_chaos_0
#guard accepts var
  "ffff07000000ff"
  "dcbe7541bc36b70f18046e6312563a5315d439a69a088931ee0daca2fdd2440b"
-- containers_var_test_struct_max_chaos_1
#guard accepts var
  "8c5b07000000ff"
  "16a0be99b3ef5107a5959bb009cf98c8a5a37aeeafd1b966c84b3c630186cfc3"
-- containers_var_test_struct_nil_0
#guard accepts var
  "6fb70700000028"
  "50683dbb595c06624e23b54b9a9aab8245af7b19e0c23e3cd35c5ccaa0beed8e"
-- containers_var_test_struct_nil_1
#guard accepts var
  "a2d807000000c2"
  "67d4e19ce21a6f72866a977768ebf9ee04cbe3b6769f44c58b3f6e53c0fa6a35"
-- containers_var_test_struct_nil_2
#guard accepts var
  "79dc0700000076"
  "695bc170943f72a828f0a0b1cb861ca3df701de71b08b87831e69bf61f0e0e3e"
-- containers_var_test_struct_nil_offset_2_minus_one
#guard rejects var
  "62cd06000000ba"
-- containers_var_test_struct_nil_offset_2_plus_one
#guard rejects var
  "f1890800000059"
-- containers_var_test_struct_nil_offset_2_zeroed
#guard rejects var
  "c08b000000000a"
-- containers_var_test_struct_one_last_offset_2_wrong_byte_length
#guard rejects var
  "b85707000000a684d4b8"
-- containers_var_test_struct_one_offset_2_minus_one
#guard rejects var
  "f9b506000000943d6f"
-- containers_var_test_struct_one_offset_2_plus_one
#guard rejects var
  "ce8608000000b5fe51"
-- containers_var_test_struct_one_offset_2_zeroed
#guard rejects var
  "3b8700000000fb2928"
-- uints_uint_128_last_byte_empty
#guard accepts (.uint .u128)
  "ffffffffffffffffffffffffffffff00"
  "ffffffffffffffffffffffffffffff0000000000000000000000000000000000"
-- uints_uint_128_one_byte_longer
#guard rejects (.uint .u128)
  "ffffffffffffffffffffffffffffffff00"
-- uints_uint_16_last_byte_empty
#guard accepts (.uint .u16)
  "ff00"
  "ff00000000000000000000000000000000000000000000000000000000000000"
-- uints_uint_16_one_byte_longer
#guard rejects (.uint .u16)
  "ffff00"
-- uints_uint_256_last_byte_empty
#guard accepts .u256
  "ffffffffffffffffffffffffffffffffffffffffffffffffffffffffffffff00"
  "ffffffffffffffffffffffffffffffffffffffffffffffffffffffffffffff00"
-- uints_uint_256_one_byte_longer
#guard rejects .u256
  "ffffffffffffffffffffffffffffffffffffffffffffffffffffffffffffffff00"
-- uints_uint_32_last_byte_empty
#guard accepts (.uint .u32)
  "ffffff00"
  "ffffff0000000000000000000000000000000000000000000000000000000000"
-- uints_uint_32_one_byte_longer
#guard rejects (.uint .u32)
  "ffffffff00"
-- uints_uint_64_last_byte_empty
#guard accepts (.uint .u64)
  "ffffffffffffff00"
  "ffffffffffffff00000000000000000000000000000000000000000000000000"
-- uints_uint_64_one_byte_longer
#guard rejects (.uint .u64)
  "ffffffffffffffff00"
-- uints_uint_8_last_byte_empty
#guard accepts (.uint .u8)
  "00"
  "0000000000000000000000000000000000000000000000000000000000000000"
-- uints_uint_8_one_byte_longer
#guard rejects (.uint .u8)
  "ff00"

end Ssz.Tests.Vectors
