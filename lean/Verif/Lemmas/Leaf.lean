import Verif.Lemmas.Scan
import Verif.Lemmas.Unescape
import Verif.Model.Path
/-
`proc_value` and `parse` as functions on suffixes.
-/
namespace Gjson

/-- `json_from_slice` as a total function. -/
def mkVal (s : Bytes) (i : Option Nat) (info : UInt32) : Value :=
  if info &&& (INFO_STRING ||| INFO_ESC) = (INFO_STRING ||| INFO_ESC) then ⟨s, [], unescQ s, info, i⟩
  else ⟨s, [], [], info, i⟩

theorem jsonFromSlice_eq (s : Bytes) (i : Option Nat) (info : UInt32) :
    jsonFromSlice s i info = .ok (mkVal s i info) := by
  unfold jsonFromSlice jsonUnescapeString mkVal
  simp only
  split
  · simp [Value.json, unescape_eq]
  · rfl

/-- `json_from_owned` as a total function. -/
def mkOwned (s : Bytes) (i : Option Nat) (info : UInt32) : Value :=
  if info &&& (INFO_STRING ||| INFO_ESC) = (INFO_STRING ||| INFO_ESC) then ⟨[], s, unescQ s, info, i⟩
  else ⟨[], s, [], info, i⟩

theorem jsonFromOwned_eq (s : Bytes) (i : Option Nat) (info : UInt32) :
    jsonFromOwned s i info = .ok (mkOwned s i info) := by
  unfold jsonFromOwned jsonUnescapeString mkOwned
  simp only
  split
  · simp only [Value.json, unescape_eq, ok_bind]
    cases s <;> simp
  · rfl

@[simp] theorem mkVal_json (s : Bytes) (i : Option Nat) (info : UInt32) : (mkVal s i info).json = s := by
  unfold mkVal Value.json; split <;> simp
@[simp] theorem mkVal_slice (s : Bytes) (i : Option Nat) (info : UInt32) : (mkVal s i info).slice = s := by
  unfold mkVal; split <;> simp
@[simp] theorem mkVal_owned (s : Bytes) (i : Option Nat) (info : UInt32) : (mkVal s i info).owned = [] := by
  unfold mkVal; split <;> simp
@[simp] theorem mkVal_info (s : Bytes) (i : Option Nat) (info : UInt32) : (mkVal s i info).info = info := by
  unfold mkVal; split <;> simp
@[simp] theorem mkVal_index (s : Bytes) (i : Option Nat) (info : UInt32) : (mkVal s i info).index = i := by
  unfold mkVal; split <;> simp
@[simp] theorem mkVal_exists (s : Bytes) (i : Option Nat) (info : UInt32) :
    (mkVal s i info).exists = decide (s ≠ []) := by
  unfold Value.exists; rw [mkVal_json]; cases s <;> simp
@[simp] theorem mkVal_kind (s : Bytes) (i : Option Nat) (info : UInt32) :
    (mkVal s i info).kind = kindMap ((info <<< 24) >>> 24) := by
  unfold Value.kind; rw [mkVal_info]
@[simp] theorem mkOwned_json (s : Bytes) (i : Option Nat) (info : UInt32) : (mkOwned s i info).json = s := by
  unfold mkOwned Value.json; split <;> cases s <;> simp
@[simp] theorem mkOwned_exists (s : Bytes) (i : Option Nat) (info : UInt32) :
    (mkOwned s i info).exists = decide (s ≠ []) := by
  unfold Value.exists; rw [mkOwned_json]; cases s <;> simp
@[simp] theorem mkOwned_info (s : Bytes) (i : Option Nat) (info : UInt32) : (mkOwned s i info).info = info := by
  unfold mkOwned; split <;> simp
@[simp] theorem mkOwned_kind (s : Bytes) (i : Option Nat) (info : UInt32) :
    (mkOwned s i info).kind = kindMap ((info <<< 24) >>> 24) := by
  unfold Value.kind; rw [mkOwned_info]

@[simp] theorem default_exists : Value.default.exists = false := rfl

/-- First byte of a number. -/
def NumStart (c : UInt8) : Prop := (c! '0' ≤ c ∧ c ≤ c! '9') ∨ c = c! '-'
instance (c : UInt8) : Decidable (NumStart c) := by unfold NumStart; infer_instance

/-- The container bit. -/
def contBit (c : UInt8) : UInt32 := if c = c! '{' then INFO_OBJECT else INFO_ARRAY

/-- What `proc_value` sees at the start of a suffix: the text and info of the
value (`none`: the neutral value), and what follows. -/
def leafTok : Bytes → Option (Bytes × UInt32) × Bytes
  | [] => (none, [])
  | c :: r =>
    if c = c! '"' then
      match qStr r with
      | none => (some ([], INFO_STRING), [])
      | some (b, f, q) => (some (c :: b, escBit f ||| INFO_STRING), q)
    else if c = c! '{' ∨ c = c! '[' then
      match sq 1 false r with
      | none => (some ([], contBit c), [])
      | some (b, q) => (some (c :: b, contBit c), q)
    else if NumStart c then
      (some (c :: numTake r, numFlags (signBit c) (numTake r) ||| INFO_NUMBER), numDrop r)
    else if c = c! 't' then
      if r.length < 3 then (none, []) else (some (c :: r.take 3, INFO_TRUE), r.drop 3)
    else if c = c! 'f' then
      if r.length < 4 then (none, []) else (some (c :: r.take 4, INFO_FALSE), r.drop 4)
    else if c = c! 'n' then
      if r.length < 3 then (none, []) else (some (c :: r.take 3, INFO_NULL), r.drop 3)
    else (none, [])

/-- The value of a token found at index `i`. -/
def tokVal (i : Nat) : Option (Bytes × UInt32) → Value
  | none => Value.default
  | some (s, info) => mkVal s (some i) info

theorem At.end (json : Bytes) : At json json.length [] := ⟨Nat.le_refl _, by simp⟩

/-- `proc_value` without a match only moves on. -/
theorem procValue_skip (dive : Nat → Path → Res (Option Found)) {json : Bytes} {i : Nat} {c : UInt8} {r : Bytes}
    (path : Path) (h : At json i (c :: r)) :
    ∃ j p, procValue dive json i path false = .ok (Value.default, j, p) ∧ At json j (leafTok (c :: r)).2 := by
  unfold procValue leafTok
  rw [h.idx]
  simp only [ok_bind]
  have hlen := h.len
  simp only [List.length_cons] at hlen
  by_cases c1 : c = c! '"'
  · rw [if_pos c1, if_pos c1]
    have := scanString_at h
    cases hq : qStr r with
    | none => rw [hq] at this; simp only at this; rw [this]; exact ⟨_, _, rfl, At.end _⟩
    | some x =>
      obtain ⟨b, f, q⟩ := x
      rw [hq] at this; simp only at this; rw [this.1]; exact ⟨_, _, rfl, this.2⟩
  rw [if_neg c1, if_neg c1]
  by_cases c2 : c = c! '{' ∨ c = c! '['
  · rw [if_pos c2, if_pos c2]
    have := scanSquash_at h
    cases hq : sq 1 false r with
    | none => rw [hq] at this; simp only at this; rw [this]; exact ⟨_, _, rfl, At.end _⟩
    | some x =>
      obtain ⟨b, q⟩ := x
      rw [hq] at this; simp only at this; rw [this.1]; exact ⟨_, _, rfl, this.2⟩
  rw [if_neg c2, if_neg c2]
  by_cases c3 : NumStart c
  · rw [if_pos (show (c ≥ c! '0' ∧ c ≤ c! '9') ∨ c = c! '-' from c3), if_pos c3]
    have := scanNumber_at h
    rw [this.1]; exact ⟨_, _, rfl, this.2⟩
  rw [if_neg (show ¬ ((c ≥ c! '0' ∧ c ≤ c! '9') ∨ c = c! '-') from c3), if_neg c3]
  have hd : ∀ k, k ≤ r.length → At json (i + (k + 1)) (r.drop k) := by
    intro k hk
    have e : At json i ((c :: r.take k) ++ r.drop k) := by simpa using h
    exact e.append' (by simp; omega)
  by_cases c4 : c = c! 't'
  · rw [if_pos c4, if_pos c4]
    by_cases hl : r.length < 3
    · rw [if_pos (by omega), if_pos hl]; exact ⟨_, _, rfl, At.end _⟩
    · rw [if_neg (by omega), if_neg hl]; exact ⟨_, _, rfl, hd 3 (by omega)⟩
  rw [if_neg c4, if_neg c4]
  by_cases c5 : c = c! 'f'
  · rw [if_pos c5, if_pos c5]
    by_cases hl : r.length < 4
    · rw [if_pos (by omega), if_pos hl]; exact ⟨_, _, rfl, At.end _⟩
    · rw [if_neg (by omega), if_neg hl]; exact ⟨_, _, rfl, hd 4 (by omega)⟩
  rw [if_neg c5, if_neg c5]
  by_cases c6 : c = c! 'n'
  · rw [if_pos c6, if_pos c6]
    by_cases hl : r.length < 3
    · rw [if_pos (by omega), if_pos hl]; exact ⟨_, _, rfl, At.end _⟩
    · rw [if_neg (by omega), if_neg hl]; exact ⟨_, _, rfl, hd 3 (by omega)⟩
  rw [if_neg c6, if_neg c6]
  exact ⟨_, _, rfl, At.end _⟩

/-- `proc_value` does not dive into the value at a suffix starting with `c`. -/
def NoDive (dive : Nat → Path → Res (Option Found)) (i : Nat) (path : Path) (c : UInt8) : Prop :=
  path.sep ≠ c! '.' ∨ ¬ (c = c! '{' ∨ c = c! '[') ∨ dive i path = .ok none

/-- First byte of a value. -/
def TokStart (c : UInt8) : Prop :=
  c = c! '"' ∨ c = c! '{' ∨ c = c! '[' ∨ NumStart c ∨ c = c! 't' ∨ c = c! 'f' ∨ c = c! 'n'
instance (c : UInt8) : Decidable (TokStart c) := by unfold TokStart; infer_instance

/-- The path returned with a token. -/
def tokPath (path : Path) : Bytes → Path
  | [] => path
  | c :: _ => if TokStart c then path else Path.empty

/-- `proc_value` on a match, when it does not dive. -/
theorem procValue_match (dive : Nat → Path → Res (Option Found)) {json : Bytes} {i : Nat} {c : UInt8} {r : Bytes}
    (path : Path) (h : At json i (c :: r)) (hd : NoDive dive i path c) :
    ∃ j, procValue dive json i path true = .ok (tokVal i (leafTok (c :: r)).1, j, tokPath path (c :: r)) ∧
      At json j (leafTok (c :: r)).2 := by
  unfold procValue leafTok tokPath
  rw [h.idx]
  simp only [ok_bind]
  have hlen := h.len
  simp only [List.length_cons] at hlen
  by_cases c1 : c = c! '"'
  · rw [if_pos c1, if_pos c1, if_pos (show TokStart c from .inl c1)]
    have := scanString_at h
    cases hq : qStr r with
    | none =>
      rw [hq] at this; simp only at this; rw [this]
      simp only [ok_bind, if_true, jsonFromSlice_eq]
      exact ⟨_, rfl, At.end _⟩
    | some x =>
      obtain ⟨b, f, q⟩ := x
      rw [hq] at this; simp only at this; rw [this.1]
      simp only [ok_bind, if_true, jsonFromSlice_eq]
      exact ⟨_, rfl, this.2⟩
  rw [if_neg c1, if_neg c1]
  by_cases c2 : c = c! '{' ∨ c = c! '['
  · rw [if_pos c2, if_pos c2, if_pos (show TokStart c by unfold TokStart; grind)]
    have hs := scanSquash_at h
    have key : ∃ j, (do
        let __discr ← scanSquash json i
        let k ← idx json i
        let v ← jsonFromSlice __discr.1 (some i) (0 ||| if k = c! '{' then INFO_OBJECT else INFO_ARRAY)
        .ok (v, __discr.2, path) : Res Found) = .ok (tokVal i (match sq 1 false r with
          | none => (some ([], contBit c), [])
          | some (b, q) => (some (c :: b, contBit c), q)).1, j, path) ∧
        At json j (match (sq 1 false r) with
          | none => ((some ([], contBit c), []) : Option (Bytes × UInt32) × Bytes)
          | some (b, q) => (some (c :: b, contBit c), q)).2 := by
      rw [h.idx]
      have e0 : (0 ||| if c = c! '{' then INFO_OBJECT else INFO_ARRAY) = contBit c := by
        unfold contBit; split <;> decide
      cases hq : sq 1 false r with
      | none =>
        rw [hq] at hs; simp only at hs; rw [hs]
        simp only [ok_bind, e0, jsonFromSlice_eq]
        exact ⟨_, rfl, At.end _⟩
      | some x =>
        obtain ⟨b, q⟩ := x
        rw [hq] at hs; simp only at hs; rw [hs.1]
        simp only [ok_bind, e0, jsonFromSlice_eq]
        exact ⟨_, rfl, hs.2⟩
    simp only [if_true]
    by_cases hsep : path.sep = c! '.'
    · rw [if_pos hsep]
      have : dive i path = .ok none := by
        rcases hd with hd | hd | hd
        · exact absurd hsep hd
        · exact absurd c2 hd
        · exact hd
      rw [this]
      exact key
    · rw [if_neg hsep]; exact key
  rw [if_neg c2, if_neg c2]
  by_cases c3 : NumStart c
  · rw [if_pos (show (c ≥ c! '0' ∧ c ≤ c! '9') ∨ c = c! '-' from c3), if_pos c3, if_pos (show TokStart c by unfold TokStart; grind)]
    have := scanNumber_at h
    rw [this.1]
    simp only [ok_bind, if_true, jsonFromSlice_eq]
    exact ⟨_, rfl, this.2⟩
  rw [if_neg (show ¬ ((c ≥ c! '0' ∧ c ≤ c! '9') ∨ c = c! '-') from c3), if_neg c3]
  have hd : ∀ k, k ≤ r.length → At json (i + (k + 1)) (r.drop k) ∧
      slice json i (i + (k + 1)) = .ok (c :: r.take k) := by
    intro k hk
    have e : At json i ((c :: r.take k) ++ r.drop k) := by simpa using h
    have el : i + (k + 1) = i + (c :: r.take k).length := by simp; omega
    exact ⟨e.append' el, e.slice' el⟩
  by_cases c4 : c = c! 't'
  · rw [if_pos c4, if_pos c4, if_pos (show TokStart c by unfold TokStart; grind)]
    by_cases hl : r.length < 3
    · rw [if_pos (by omega), if_pos hl]; exact ⟨_, rfl, At.end _⟩
    · rw [if_neg (by omega), if_neg hl]
      obtain ⟨g1, g2⟩ := hd 3 (by omega)
      simp only [if_true, g2, ok_bind, jsonFromSlice_eq]
      exact ⟨_, rfl, g1⟩
  rw [if_neg c4, if_neg c4]
  by_cases c5 : c = c! 'f'
  · rw [if_pos c5, if_pos c5, if_pos (show TokStart c by unfold TokStart; grind)]
    by_cases hl : r.length < 4
    · rw [if_pos (by omega), if_pos hl]; exact ⟨_, rfl, At.end _⟩
    · rw [if_neg (by omega), if_neg hl]
      obtain ⟨g1, g2⟩ := hd 4 (by omega)
      simp only [if_true, g2, ok_bind, jsonFromSlice_eq]
      exact ⟨_, rfl, g1⟩
  rw [if_neg c5, if_neg c5]
  by_cases c6 : c = c! 'n'
  · rw [if_pos c6, if_pos c6, if_pos (show TokStart c by unfold TokStart; grind)]
    by_cases hl : r.length < 3
    · rw [if_pos (by omega), if_pos hl]; exact ⟨_, rfl, At.end _⟩
    · rw [if_neg (by omega), if_neg hl]
      obtain ⟨g1, g2⟩ := hd 3 (by omega)
      simp only [if_true, g2, ok_bind, jsonFromSlice_eq]
      exact ⟨_, rfl, g1⟩
  rw [if_neg c6, if_neg c6, if_neg (show ¬ TokStart c by unfold TokStart; grind)]
  exact ⟨_, rfl, At.end _⟩

/-- `proc_value` as used by `parse`, `for_each` and `path_next`. -/
theorem procLeaf_at {json : Bytes} {i : Nat} {c : UInt8} {r : Bytes} (h : At json i (c :: r)) :
    ∃ j, procLeaf json i = .ok (tokVal i (leafTok (c :: r)).1, j, Path.empty) ∧
      At json j (leafTok (c :: r)).2 := by
  have := procValue_match (fun _ _ => rpanic) Path.empty h (.inl (by decide))
  unfold procLeaf
  have e : tokPath Path.empty (c :: r) = Path.empty := by unfold tokPath; simp
  rw [e] at this
  exact this

/-- The token is a prefix of the suffix, and there is progress. -/
theorem leafTok_split {s : Bytes} (hs : s ≠ []) :
    (∃ v info, leafTok s = (some (v, info), (leafTok s).2) ∧ v ≠ [] ∧ s = v ++ (leafTok s).2) ∨
    ((leafTok s).2 = [] ∧ ∀ i, (tokVal i (leafTok s).1).exists = false) := by
  cases s with
  | nil => exact absurd rfl hs
  | cons c r =>
    simp only [leafTok]
    split
    · cases hq : qStr r with
      | none => right; simp [tokVal]
      | some x =>
        obtain ⟨b, f, q⟩ := x
        left
        have := qStr_append hq
        exact ⟨_, _, rfl, by simp, by simp [this]⟩
    · split
      · cases hq : sq 1 false r with
        | none => right; simp [tokVal]
        | some x =>
          obtain ⟨b, q⟩ := x
          left
          have := (sq_append hq).1
          exact ⟨_, _, rfl, by simp, by simp [this]⟩
      · split
        · left
          exact ⟨_, _, rfl, by simp, by simp [numTake_append_numDrop]⟩
        · split
          · split
            · right; simp [tokVal]
            · left; exact ⟨_, _, rfl, by simp, by simp⟩
          · split
            · split
              · right; simp [tokVal]
              · left; exact ⟨_, _, rfl, by simp, by simp⟩
            · split
              · split
                · right; simp [tokVal]
                · left; exact ⟨_, _, rfl, by simp, by simp⟩
              · right; simp [tokVal]

theorem leafTok_lt {s : Bytes} (hs : s ≠ []) : (leafTok s).2.length < s.length := by
  rcases leafTok_split hs with ⟨v, info, h1, h2, h3⟩ | ⟨h, _⟩
  · have := congrArg List.length h3
    have := List.length_pos_iff.2 h2
    simp at *; omega
  · rw [h]; exact List.length_pos_iff.2 hs

end Gjson
