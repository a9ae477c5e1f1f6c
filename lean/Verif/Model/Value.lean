import Verif.Model.Util
import Verif.Model.Num
import Verif.Model.Scan
/-
Model of `Value` and its accessors, /repo/src/lib.rs:80-350, 424-434, 1094-1106.
-/
namespace Gjson

/-- lib.rs:81-87 `Value`. -/
structure Value where
  slice : Bytes
  owned : Bytes
  uescstr : Bytes
  info : UInt32
  index : Option Nat
deriving DecidableEq, Repr

/-- lib.rs:126-136 `Value::default`. -/
def Value.default : Value := ⟨[], [], [], 0, none⟩

/-- lib.rs:210-216 `Value::json`. -/
def Value.json (v : Value) : Bytes := if v.owned.length > 0 then v.owned else v.slice

/-- lib.rs:202-204 `Value::exists`. -/
def Value.exists (v : Value) : Bool := v.json.length > 0

/-- lib.rs:206-208 `Value::kind`. -/
def Value.kind (v : Value) : Kind := kindMap ((v.info <<< 24) >>> 24)

/-- lib.rs:178-183 `json_unescape_string`. -/
def jsonUnescapeString (v : Value) : Res Value :=
  if v.info &&& (INFO_STRING ||| INFO_ESC) = (INFO_STRING ||| INFO_ESC) then do
    let u ← unescape v.json
    .ok { v with uescstr := u }
  else .ok v

/-- lib.rs:154-164 `json_from_slice`. -/
def jsonFromSlice (slice : Bytes) (index : Option Nat) (info : UInt32) : Res Value :=
  jsonUnescapeString ⟨slice, [], [], info, index⟩

/-- lib.rs:166-176 `json_from_owned`. -/
def jsonFromOwned (owned : Bytes) (index : Option Nat) (info : UInt32) : Res Value :=
  jsonUnescapeString ⟨[], owned, [], info, index⟩

/-- lib.rs:144-152 `json_clone_from_ref`. -/
def jsonCloneFromRef (v : Value) : Value := ⟨v.json, [], v.uescstr, v.info, v.index⟩

/-- lib.rs:1094-1106 `json_into_owned`. -/
def jsonIntoOwned (v : Value) : Value :=
  ⟨[], if v.slice.length > 0 then v.slice else v.owned, v.uescstr, v.info, v.index⟩

/-- lib.rs:424-426 `raw_to_f64`. -/
def rawToF64 (raw : Bytes) : F64 := (parseF64 raw).getD F64.zero
/-- lib.rs:428-430 `raw_to_i64`. -/
def rawToI64 (raw : Bytes) : Int := (parseI64 raw).getD (rawToF64 raw).toI64
/-- lib.rs:432-434 `raw_to_u64`. -/
def rawToU64 (raw : Bytes) : Nat := (parseU64 raw).getD (rawToF64 raw).toU64

/-- The content of a string value without escapes: `&raw[1..raw.len() - 1]`
(lib.rs:226, 246, 262, 343). `raw.len() - 1` overflows for an empty `raw`
(a panic in debug builds, an out-of-range slice panic in release builds). -/
def stripQuotes (raw : Bytes) : Res Bytes :=
  if raw.length = 0 then rpanic else slice raw 1 (raw.length - 1)

/-- lib.rs:223-227 (and 243-247, 259-263): the text of a string value that is
handed to the number parsers. -/
def Value.strForNum (v : Value) : Res Bytes :=
  if v.info &&& INFO_ESC = INFO_ESC then unescape v.json else stripQuotes v.json

/-- lib.rs:218-232 `Value::f64`. -/
def Value.f64 (v : Value) : Res F64 :=
  match v.kind with
  | .true => .ok F64.one
  | .string => do let s ← v.strForNum; .ok (rawToF64 s)
  | .number => .ok (rawToF64 v.json)
  | _ => .ok F64.zero

/-- lib.rs:234-236 `Value::f32`. -/
def Value.f32 (v : Value) : Res F64 := do
  let x ← v.f64
  .ok x.toF32

/-- lib.rs:238-252 `Value::i64`. -/
def Value.i64 (v : Value) : Res Int :=
  match v.kind with
  | .true => .ok 1
  | .string => do let s ← v.strForNum; .ok (rawToI64 s)
  | .number => .ok (rawToI64 v.json)
  | _ => .ok 0

/-- lib.rs:254-268 `Value::u64`. -/
def Value.u64 (v : Value) : Res Nat :=
  match v.kind with
  | .true => .ok 1
  | .string => do let s ← v.strForNum; .ok (rawToU64 s)
  | .number => .ok (rawToU64 v.json)
  | _ => .ok 0

/-- Rust `x as iN` for an `i64` `x`: reduce modulo `2^bits` into the signed range.
Used at lib.rs:278, 289, 300. -/
def wrapSigned (bits : Nat) (x : Int) : Int := Int.bmod x (2 ^ bits)

/-- Rust `x as uN` for a `u64` `x`. Used at lib.rs:305, 310, 315. -/
def wrapUnsigned (bits : Nat) (x : Nat) : Nat := x % 2 ^ bits

/-- lib.rs:270-279 `Value::i32`. -/
def Value.i32 (v : Value) : Res Int := do
  let x ← v.i64
  .ok (wrapSigned 32
    (if x < -2147483648 then -2147483648
     else if x > 2147483648 then 2147483648
     else x))

/-- lib.rs:281-290 `Value::i16`. -/
def Value.i16 (v : Value) : Res Int := do
  let x ← v.i64
  .ok (wrapSigned 16 (if x < -32768 then -32768 else if x > 32767 then 32767 else x))

/-- lib.rs:292-301 `Value::i8`. -/
def Value.i8 (v : Value) : Res Int := do
  let x ← v.i64
  .ok (wrapSigned 8 (if x < -128 then -128 else if x > 127 then 127 else x))

/-- lib.rs:303-306 `Value::u32`. -/
def Value.u32 (v : Value) : Res Nat := do
  let x ← v.u64
  .ok (wrapUnsigned 32 (if x > 4294967295 then 4294967295 else x))

/-- lib.rs:308-311 `Value::u16`. -/
def Value.u16 (v : Value) : Res Nat := do
  let x ← v.u64
  .ok (wrapUnsigned 16 (if x > 65535 then 65535 else x))

/-- lib.rs:313-316 `Value::u8`. -/
def Value.u8 (v : Value) : Res Nat := do
  let x ← v.u64
  .ok (wrapUnsigned 8 (if x > 255 then 255 else x))

/-- lib.rs:318-331 `Value::bool`. -/
def Value.bool (v : Value) : Res Bool :=
  let raw := v.json
  if raw = b!"1" ∨ raw = b!"true" then .ok true
  else if raw = b!"0" ∨ raw = b!"false" then .ok false
  else if raw = b!"\"t\"" ∨ raw = b!"\"1\"" ∨ raw = b!"\"T\"" then .ok true
  else if raw = b!"\"f\"" ∨ raw = b!"\"0\"" ∨ raw = b!"\"F\"" then .ok false
  else if raw = b!"\"true\"" ∨ raw = b!"\"TRUE\"" ∨ raw = b!"\"True\"" then .ok true
  else if raw = b!"\"false\"" ∨ raw = b!"\"FALSE\"" ∨ raw = b!"\"False\"" then .ok false
  else do let x ← v.i64; .ok (x ≠ 0)

/-- lib.rs:333-350 `Value::str`. -/
def Value.str (v : Value) : Res Bytes :=
  match v.kind with
  | .true => .ok b!"true"
  | .false => .ok b!"false"
  | .object | .array | .number => .ok v.json
  | .string => if v.info &&& INFO_ESC = INFO_ESC then .ok v.uescstr else stripQuotes v.json
  | .null => .ok []

/-- lib.rs:138-142 `Display` for `Value` (`to_string`, `format!`). -/
def Value.display (v : Value) : Res Bytes := v.str

/-- Rust `str::cmp` / `[u8]::cmp`: byte-wise lexicographic order.
Used at lib.rs:109, 121, 836-839, pretty.rs:415. -/
def cmpBytes : Bytes → Bytes → Ordering
  | [], [] => .eq
  | [], _ :: _ => .lt
  | _ :: _, [] => .gt
  | a :: x, b :: y => if a < b then .lt else if a > b then .gt else cmpBytes x y

/-- lib.rs:47-51 `Ord for Kind`. -/
def Kind.cmp (a b : Kind) : Ordering := compare a.toNat b.toNat

/-- lib.rs:103-124 `Ord for Value`. -/
def Value.cmp (a b : Value) : Res Ordering :=
  let c := a.kind.cmp b.kind
  if c ≠ .eq then .ok c
  else if a.kind = .string then do
    let x ← a.str
    let y ← b.str
    .ok (cmpBytes x y)
  else if a.kind = .number then do
    let x ← a.f64
    let y ← b.f64
    .ok (if x.lt y then .lt else if y.lt x then .gt else .eq)
  else .ok (cmpBytes a.json b.json)

/-- lib.rs:97-101 `PartialEq for Value`. -/
def Value.eq (a b : Value) : Res Bool := do
  let c ← a.cmp b
  .ok (c = .eq)

end Gjson
