import Verif.Lemmas.Leaf
import Verif.Lemmas.Num
/-
Order laws and the totality of the accessors.
-/
namespace Gjson
open Spec

/-- A total preorder given by a comparison function, on the values satisfying `P`. -/
structure TotalOrd {α : Type} (P : α → Prop) (cmp : α → α → Ordering) : Prop where
  refl : ∀ a, P a → cmp a a = .eq
  swap : ∀ a b, P a → P b → cmp b a = (cmp a b).swap
  trans : ∀ a b c, P a → P b → P c → cmp a b ≠ .gt → cmp b c ≠ .gt → cmp a c ≠ .gt

theorem cmpBytes_refl (a : Bytes) : cmpBytes a a = .eq := by
  induction a with
  | nil => rfl
  | cons c a ih => simp [cmpBytes, ih]

theorem cmpBytes_swap (a b : Bytes) : cmpBytes b a = (cmpBytes a b).swap := by
  induction a generalizing b with
  | nil => cases b <;> rfl
  | cons c a ih =>
    cases b with
    | nil => rfl
    | cons d b =>
      simp only [cmpBytes]
      by_cases h1 : c < d
      · have h2 : ¬ d < c := by grind
        simp [h1, h2]
      · by_cases h2 : d < c
        · simp [h1, h2]
        · simp [h1, h2, ih]

theorem cmpBytes_trans (a b c : Bytes) : cmpBytes a b ≠ .gt → cmpBytes b c ≠ .gt → cmpBytes a c ≠ .gt := by
  induction a generalizing b c with
  | nil => intro _ _; cases c <;> simp [cmpBytes]
  | cons x a ih =>
    cases b with
    | nil => simp [cmpBytes]
    | cons y b =>
      cases c with
      | nil => simp [cmpBytes]
      | cons z c =>
        simp only [cmpBytes]
        intro h1 h2
        by_cases g1 : x < y
        · by_cases g2 : y < z
          · have : x < z := by grind
            simp [this]
          · by_cases g3 : z < y
            · simp [g2, g3] at h2
            · have : y = z := by grind
              subst this; simp [g1]
        · by_cases g1' : y < x
          · simp [g1, g1'] at h1
          · have : x = y := by grind
            subst this
            by_cases g2 : x < z
            · simp [g2]
            · by_cases g3 : z < x
              · simp [g2, g3] at h2
              · simp only [g1, g2, g3, if_false] at h1 h2 ⊢
                exact ih b c h1 h2

theorem cmpBytes_eq (a b : Bytes) : cmpBytes a b = .eq ↔ a = b := by
  induction a generalizing b with
  | nil => cases b <;> simp [cmpBytes]
  | cons x a ih =>
    cases b with
    | nil => simp [cmpBytes]
    | cons y b =>
      simp only [cmpBytes]
      by_cases g1 : x < y
      · simp [g1]; grind
      · by_cases g2 : y < x
        · simp [g1, g2]; grind
        · have : x = y := by grind
          subst this; simp [ih]

theorem cmpBytes_lt (x y : Bytes) : cmpBytes x y = .lt ↔ x < y := by
  induction x generalizing y with
  | nil => cases y <;> simp [cmpBytes]
  | cons c x ih =>
    cases y with
    | nil => simp [cmpBytes]
    | cons d y =>
      simp only [cmpBytes, List.cons_lt_cons_iff]
      by_cases h1 : c < d
      · simp [h1]
      · by_cases h2 : d < c
        · have : c ≠ d := by grind
          simp [h1, h2, this]
        · have : c = d := by grind
          subst this
          simp [ih]

theorem cmpBytes_gt (x y : Bytes) : cmpBytes x y = .gt ↔ y < x := by
  rw [← cmpBytes_lt, cmpBytes_swap y x]
  cases cmpBytes y x <;> simp [Ordering.swap]

theorem cmpBytes_ord : TotalOrd (fun _ => True) cmpBytes :=
  ⟨fun a _ => cmpBytes_refl a, fun a b _ _ => cmpBytes_swap a b, fun a b c _ _ _ => cmpBytes_trans a b c⟩

/-- The comparison of numbers in `Ord for Value`. -/
def cmpF64 (x y : F64) : Ordering := if x.lt y then .lt else if y.lt x then .gt else .eq

theorem cmpF64_ord : TotalOrd (fun x => x ≠ F64.nan) cmpF64 := by
  refine ⟨?_, ?_, ?_⟩
  · intro a ha
    cases a with
    | nan => exact absurd rfl ha
    | inf n => cases n <;> rfl
    | fin n k => simp [cmpF64, F64.lt]
  · intro a b ha hb
    cases a with
    | nan => exact absurd rfl ha
    | inf n =>
      cases b with
      | nan => exact absurd rfl hb
      | inf m => cases n <;> cases m <;> rfl
      | fin m k => cases n <;> rfl
    | fin n k =>
      cases b with
      | nan => exact absurd rfl hb
      | inf m => cases m <;> rfl
      | fin m l =>
        simp only [cmpF64, F64.lt, decide_eq_true_eq]
        by_cases h1 : F64.signed n k < F64.signed m l
        · rw [if_neg (by omega), if_pos h1, if_pos h1]; rfl
        · rw [if_neg (c := F64.signed n k < F64.signed m l) h1, if_neg h1]
          by_cases h2 : F64.signed m l < F64.signed n k
          · rw [if_pos h2, if_pos h2]; rfl
          · rw [if_neg h2, if_neg h2]; rfl
  · intro a b c ha hb hc
    cases a with
    | nan => exact absurd rfl ha
    | inf n =>
      cases b with
      | nan => exact absurd rfl hb
      | inf m =>
        cases c with
        | nan => exact absurd rfl hc
        | inf o => cases n <;> cases m <;> cases o <;> decide
        | fin o j => cases n <;> cases m <;> simp [cmpF64, F64.lt]
      | fin m k =>
        cases c with
        | nan => exact absurd rfl hc
        | inf o => cases n <;> cases o <;> simp [cmpF64, F64.lt]
        | fin o j => cases n <;> simp [cmpF64, F64.lt]
    | fin n k =>
      cases b with
      | nan => exact absurd rfl hb
      | inf m =>
        cases c with
        | nan => exact absurd rfl hc
        | inf o => cases m <;> cases o <;> simp [cmpF64, F64.lt]
        | fin o j => cases m <;> simp [cmpF64, F64.lt]
      | fin m l =>
        cases c with
        | nan => exact absurd rfl hc
        | inf o => cases o <;> simp [cmpF64, F64.lt]
        | fin o j =>
          simp only [cmpF64, F64.lt, decide_eq_true_eq]
          intro h1 h2
          grind

/-- Both operands of a comparison have a content. -/
structure Comparable (v : Value) : Prop where
  str : v.kind = .string → ∃ s, v.str = .ok s
  num : v.kind = .number → v.f64 ≠ .ok F64.nan

/-- Content of a string value. -/
def Value.strD (v : Value) : Bytes := match v.str with | .ok s => s | .error _ => []
/-- Numeric value. -/
def Value.f64D (v : Value) : F64 := match v.f64 with | .ok s => s | .error _ => F64.zero

theorem f64_number {v : Value} (h : v.kind = .number) : v.f64 = .ok (rawToF64 v.json) := by
  unfold Value.f64; rw [h]

/-- `Ord for Value` as a total function. -/
def cmpVal (a b : Value) : Ordering :=
  if a.kind ≠ b.kind then compare a.kind.toNat b.kind.toNat
  else if a.kind = .string then cmpBytes a.strD b.strD
  else if a.kind = .number then cmpF64 a.f64D b.f64D
  else cmpBytes a.json b.json

theorem kindCmp (a b : Kind) : (Kind.cmp a b = .eq ↔ a = b) ∧ (a ≠ b → Kind.cmp a b = compare a.toNat b.toNat) := by
  cases a <;> cases b <;> decide

theorem cmpVal_kind {a b : Value} (h : a.kind ≠ b.kind) : cmpVal a b = compare a.kind.toNat b.kind.toNat := by
  unfold cmpVal; rw [if_pos h]

theorem cmpVal_same {a b : Value} (h : a.kind = b.kind) : cmpVal a b =
    if a.kind = .string then cmpBytes a.strD b.strD
    else if a.kind = .number then cmpF64 a.f64D b.f64D
    else cmpBytes a.json b.json := by
  unfold cmpVal; rw [if_neg (fun x => x h)]

theorem cmp_eq {a b : Value} (ha : Comparable a) (hb : Comparable b) : a.cmp b = .ok (cmpVal a b) := by
  unfold Value.cmp
  simp only
  by_cases h : a.kind = b.kind
  · rw [cmpVal_same h, if_neg (fun x => x ((kindCmp a.kind b.kind).1.2 h))]
    by_cases h1 : a.kind = .string
    · obtain ⟨s, hs⟩ := ha.str h1
      obtain ⟨t, ht⟩ := hb.str (h ▸ h1)
      rw [if_pos h1, if_pos h1]
      simp [hs, ht, Value.strD]
    · rw [if_neg h1, if_neg h1]
      by_cases h2 : a.kind = .number
      · rw [if_pos h2, if_pos h2]
        simp [f64_number h2, f64_number (h ▸ h2 : b.kind = .number), Value.f64D, cmpF64]
      · rw [if_neg h2, if_neg h2]
  · rw [if_pos (fun x => h ((kindCmp a.kind b.kind).1.1 x)), cmpVal_kind h, (kindCmp a.kind b.kind).2 h]

theorem cmpVal_ord : TotalOrd Comparable cmpVal := by
  have hf : ∀ a, Comparable a → a.kind = .number → a.f64D ≠ F64.nan := by
    intro a ha hk
    have := ha.num hk
    rw [f64_number hk] at this
    simp only [Value.f64D, f64_number hk]
    simpa using this
  refine ⟨?_, ?_, ?_⟩
  · intro a ha
    unfold cmpVal
    rw [if_neg (by simp)]
    split
    · exact cmpBytes_refl _
    · split
      · exact cmpF64_ord.refl _ (hf a ha (by assumption))
      · exact cmpBytes_refl _
  · intro a b ha hb
    by_cases h : a.kind = b.kind
    · rw [cmpVal_same h, cmpVal_same h.symm, ← h]
      split
      · exact cmpBytes_swap _ _
      · split
        · rename_i h2
          exact cmpF64_ord.swap _ _ (hf a ha h2) (hf b hb (h ▸ h2))
        · exact cmpBytes_swap _ _
    · rw [cmpVal_kind h, cmpVal_kind (fun x => h x.symm)]
      exact (Nat.compare_swap _ _).symm
  · intro a b c ha hb hc
    have hk : ∀ x y : Kind, x ≠ y → (compare x.toNat y.toNat ≠ .gt ↔ x.toNat < y.toNat) := by
      intro x y; cases x <;> cases y <;> decide
    by_cases h : a.kind = b.kind
    · by_cases h' : b.kind = c.kind
      · rw [cmpVal_same h, cmpVal_same h', cmpVal_same (h.trans h'), ← h]
        split
        · exact cmpBytes_trans _ _ _
        · split
          · rename_i h2
            exact cmpF64_ord.trans _ _ _ (hf a ha h2) (hf b hb (h ▸ h2)) (hf c hc (h' ▸ h ▸ h2))
          · exact cmpBytes_trans _ _ _
      · rw [cmpVal_kind h', cmpVal_kind (show a.kind ≠ c.kind by rw [h]; exact h'), h]
        intro _ h3; exact h3
    · by_cases h' : b.kind = c.kind
      · rw [cmpVal_kind h, cmpVal_kind (show a.kind ≠ c.kind by rw [← h']; exact h), h']
        intro h3 _; exact h3
      · rw [cmpVal_kind h, cmpVal_kind h', hk _ _ h, hk _ _ h']
        intro h1 h2
        have hac : a.kind ≠ c.kind := by
          intro e; rw [e] at h1; omega
        rw [cmpVal_kind hac, hk _ _ hac]
        omega

/-! ### Numbers are never NaN -/

theorem ofRat_ne_nan (n : Bool) (a b : Nat) : F64.ofRat n a b ≠ .nan := by
  unfold F64.ofRat; simp only; split <;> simp

theorem decToF64_ne_nan (n : Bool) (a : Nat) (e : Int) : decToF64 n a e ≠ .nan := by
  unfold decToF64; split <;> exact ofRat_ne_nan _ _ _

theorem parseF64Unsigned_ne_nan {s : Bytes} {n : Bool} {x : F64} (hs : ∀ c ∈ s, NumCh c)
    (h : parseF64Unsigned n s = some x) : x ≠ .nan := by
  unfold parseF64Unsigned at h
  simp only at h
  have hn : ∀ c ∈ s.map lowerAscii, c ≠ c! 'n' := by
    intro c hc
    obtain ⟨d, hd, rfl⟩ := List.mem_map.1 hc
    have := hs d hd
    unfold NumCh at this
    unfold lowerAscii
    split <;> grind (splits := 30)
  split at h
  · simp at h; subst h; simp
  split at h
  · rename_i h2
    exact absurd rfl (hn (c! 'n') (by rw [h2]; decide))
  split at h
  · split at h
    · simp at h
    · simp at h; subst h; exact decToF64_ne_nan _ _ _
  · split at h
    · split at h
      · simp at h
      · simp at h
        obtain ⟨e, _, rfl⟩ := h
        exact decToF64_ne_nan _ _ _
    · split at h
      · simp at h
      · simp at h
        obtain ⟨e, _, rfl⟩ := h
        exact decToF64_ne_nan _ _ _

theorem rawToF64_ne_nan {s : Bytes} (hs : ∀ c ∈ s, NumCh c) : rawToF64 s ≠ .nan := by
  unfold rawToF64
  cases h : parseF64 s with
  | none => simp [F64.zero]
  | some x =>
    simp only [Option.getD_some]
    unfold parseF64 at h
    split at h
    · simp at h
    · split at h
      · exact parseF64Unsigned_ne_nan (fun c hc => hs c (by simp [hc])) h
      · split at h
        · exact parseF64Unsigned_ne_nan (fun c hc => hs c (by simp [hc])) h
        · exact parseF64Unsigned_ne_nan hs h

/-! ### Totality of the accessors -/

/-- What the library guarantees about its values: an existing string has its two
quotes, an existing number consists of number bytes. -/
structure GoodVal (v : Value) : Prop where
  str : v.exists = true → v.kind = .string → 2 ≤ v.json.length
  num : v.kind = .number → ∀ c ∈ v.json, NumCh c

theorem exists_json {v : Value} : v.exists = true ↔ v.json ≠ [] := by
  unfold Value.exists
  cases v.json <;> simp

theorem stripQuotes_ok {s : Bytes} (h : 2 ≤ s.length) : stripQuotes s = .ok ((s.drop 1).take (s.length - 2)) := by
  unfold stripQuotes
  rw [if_neg (by omega)]
  unfold slice sub
  rw [if_pos (by omega)]
  congr 2

theorem GoodVal.strOk {v : Value} (h : GoodVal v) (he : v.exists = true ∨ v.kind ≠ .string) :
    ∃ s, v.str = .ok s := by
  unfold Value.str
  split <;> try exact ⟨_, rfl⟩
  rename_i hk
  split
  · exact ⟨_, rfl⟩
  · exact ⟨_, stripQuotes_ok (h.str (he.resolve_right (fun x => x hk)) hk)⟩

theorem GoodVal.strForNum {v : Value} (h : GoodVal v) (he : v.exists = true) (hk : v.kind = .string) :
    ∃ s, v.strForNum = .ok s := by
  unfold Value.strForNum
  split
  · exact ⟨_, unescape_eq _⟩
  · exact ⟨_, stripQuotes_ok (h.str he hk)⟩

theorem GoodVal.f64Ok {v : Value} (h : GoodVal v) (he : v.exists = true ∨ v.kind ≠ .string) :
    ∃ x, v.f64 = .ok x := by
  unfold Value.f64
  split <;> try exact ⟨_, rfl⟩
  rename_i hk
  obtain ⟨s, hs⟩ := h.strForNum (he.resolve_right (fun x => x hk)) hk
  exact ⟨_, by rw [hs]; rfl⟩

theorem GoodVal.i64Ok {v : Value} (h : GoodVal v) (he : v.exists = true ∨ v.kind ≠ .string) :
    ∃ x, v.i64 = .ok x := by
  unfold Value.i64
  split <;> try exact ⟨_, rfl⟩
  rename_i hk
  obtain ⟨s, hs⟩ := h.strForNum (he.resolve_right (fun x => x hk)) hk
  exact ⟨_, by rw [hs]; rfl⟩

theorem GoodVal.u64Ok {v : Value} (h : GoodVal v) (he : v.exists = true ∨ v.kind ≠ .string) :
    ∃ x, v.u64 = .ok x := by
  unfold Value.u64
  split <;> try exact ⟨_, rfl⟩
  rename_i hk
  obtain ⟨s, hs⟩ := h.strForNum (he.resolve_right (fun x => x hk)) hk
  exact ⟨_, by rw [hs]; rfl⟩

theorem GoodVal.boolOk {v : Value} (h : GoodVal v) (he : v.exists = true ∨ v.kind ≠ .string) :
    ∃ x, v.bool = .ok x := by
  obtain ⟨x, hx⟩ := h.i64Ok he
  unfold Value.bool
  simp only [hx, ok_bind]
  split; · exact ⟨_, rfl⟩
  split; · exact ⟨_, rfl⟩
  split; · exact ⟨_, rfl⟩
  split; · exact ⟨_, rfl⟩
  split; · exact ⟨_, rfl⟩
  split; · exact ⟨_, rfl⟩
  exact ⟨_, rfl⟩

theorem GoodVal.comparable {v : Value} (h : GoodVal v) (he : v.exists = true ∨ v.kind ≠ .string) :
    Comparable v := by
  refine ⟨fun _ => h.strOk he, fun hk => ?_⟩
  rw [f64_number hk]
  have := rawToF64_ne_nan (h.num hk)
  simpa using this

/-- Every token gives a good value. -/
theorem tokVal_good (i : Nat) (s : Bytes) : GoodVal (tokVal i (leafTok s).1) := by
  have hdef : GoodVal Value.default := ⟨by simp, by simp [Value.json, Value.default]⟩
  have hk : ∀ (s : Bytes) (i : Option Nat) (info : UInt32), kindMap ((info <<< 24) >>> 24) ≠ .string →
      kindMap ((info <<< 24) >>> 24) ≠ .number → GoodVal (mkVal s i info) := by
    intro s i info h1 h2
    exact ⟨fun _ h => absurd (by simpa using h) h1, fun h => absurd (by simpa using h) h2⟩
  cases s with
  | nil => exact hdef
  | cons c r =>
    simp only [leafTok]
    split
    · have hes : ∀ f, kindMap (((escBit f ||| INFO_STRING) <<< 24) >>> 24) ≠ .number := by
        intro f; cases f <;> decide
      cases hq : qStr r with
      | none => exact ⟨by simp [tokVal], by simp [tokVal]⟩
      | some x =>
        obtain ⟨b, f, q⟩ := x
        have := qStr_ne_nil hq
        refine ⟨fun _ _ => ?_, fun h => absurd (by simpa [tokVal] using h) (hes f)⟩
        simp only [tokVal, mkVal_json, List.length_cons]
        have := List.length_pos_iff.2 this
        omega
    split
    · have hc : kindMap ((contBit c <<< 24) >>> 24) ≠ .string ∧ kindMap ((contBit c <<< 24) >>> 24) ≠ .number := by
        unfold contBit; split <;> decide
      cases hq : sq 1 false r with
      | none => exact hk _ _ _ hc.1 hc.2
      | some x => obtain ⟨b, q⟩ := x; exact hk _ _ _ hc.1 hc.2
    split
    · rename_i hn
      refine ⟨fun _ h => ?_, fun _ => ?_⟩
      · exfalso
        simp only [tokVal, mkVal_kind] at h
        have hf : NumFlags (numFlags (signBit c) (numTake r)) := numFlags_mem (signBit_mem c)
        unfold NumFlags at hf
        simp only [List.mem_cons, List.not_mem_nil, or_false] at hf
        rcases hf with hf | hf | hf | hf | hf | hf | hf | hf <;> rw [hf] at h <;> exact absurd h (by decide)
      · simp only [tokVal, mkVal_json]
        intro d hd
        rcases List.mem_cons.1 hd with rfl | hd
        · unfold NumStart at hn; unfold NumCh; grind
        · have := List.all_takeWhile (p := fun c => decide (NumCh c)) (l := r)
          have h2 := List.all_eq_true.1 this d hd
          simpa using h2
    split
    · split
      · exact hdef
      · exact hk _ _ _ (by decide) (by decide)
    split
    · split
      · exact hdef
      · exact hk _ _ _ (by decide) (by decide)
    split
    · split
      · exact hdef
      · exact hk _ _ _ (by decide) (by decide)
    exact hdef

end Gjson
