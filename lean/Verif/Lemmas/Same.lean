import Verif.Lemmas.Enum
import Verif.Lemmas.Order
/-
Values that cannot be told apart, and the values enumerated by `each`.
-/
namespace Gjson
open Spec

/-- Two values cannot be told apart by any accessor: same source text, same kind,
same string, same numbers, same truth value. (The private field `index` is not
observable, and neither is whether the text is borrowed or owned.) -/
structure SameValue (a b : Value) : Prop where
  json : a.json = b.json
  kind : a.kind = b.kind
  str : a.str = b.str
  i64 : a.i64 = b.i64
  u64 : a.u64 = b.u64
  f64 : a.f64 = b.f64
  bool : a.bool = b.bool

theorem SameValue.refl (a : Value) : SameValue a a := ⟨rfl, rfl, rfl, rfl, rfl, rfl, rfl⟩
theorem SameValue.symm {a b : Value} (h : SameValue a b) : SameValue b a :=
  ⟨h.json.symm, h.kind.symm, h.str.symm, h.i64.symm, h.u64.symm, h.f64.symm, h.bool.symm⟩
theorem SameValue.trans {a b c : Value} (h : SameValue a b) (g : SameValue b c) : SameValue a c :=
  ⟨h.json.trans g.json, h.kind.trans g.kind, h.str.trans g.str, h.i64.trans g.i64, h.u64.trans g.u64,
    h.f64.trans g.f64, h.bool.trans g.bool⟩

theorem SameValue.exists {a b : Value} (h : SameValue a b) : a.exists = b.exists := by
  unfold Value.exists; rw [h.json]

/-- Which fields the accessors look at. -/
theorem sameValue_of {a b : Value} (hj : a.json = b.json) (hk : a.kind = b.kind)
    (hs : a.kind = .string → (a.info &&& INFO_ESC = b.info &&& INFO_ESC ∧
      (a.info &&& INFO_ESC = INFO_ESC → a.uescstr = b.uescstr))) : SameValue a b := by
  have hstr : a.str = b.str := by
    unfold Value.str
    rw [← hk]
    split <;> try first | rfl | (rw [hj]; done)
    rename_i h
    obtain ⟨h1, h2⟩ := hs h
    rw [← h1]
    split
    · rename_i h3; rw [h2 h3]
    · rw [hj]
  have hnum : a.kind = .string → a.strForNum = b.strForNum := by
    intro h
    unfold Value.strForNum
    rw [(hs h).1, hj]
  have hi : a.i64 = b.i64 := by
    unfold Value.i64
    rw [← hk]
    split <;> try first | rfl | (rw [hj]; done)
    rename_i h
    rw [hnum h]
  have hu : a.u64 = b.u64 := by
    unfold Value.u64
    rw [← hk]
    split <;> try first | rfl | (rw [hj]; done)
    rename_i h
    rw [hnum h]
  have hf : a.f64 = b.f64 := by
    unfold Value.f64
    rw [← hk]
    split <;> try first | rfl | (rw [hj]; done)
    rename_i h
    rw [hnum h]
  exact ⟨hj, hk, hstr, hi, hu, hf, by unfold Value.bool; rw [hj, hi]⟩

theorem mkVal_uescstr (s : Bytes) (i j : Option Nat) (info : UInt32) :
    (mkVal s i info).uescstr = (mkVal s j info).uescstr := by
  unfold mkVal; split <;> rfl

/-- The position of a value cannot be observed. -/
theorem sameValue_index (s : Bytes) (i j : Option Nat) (info : UInt32) :
    SameValue (mkVal s i info) (mkVal s j info) :=
  sameValue_of (by simp) (by simp) (fun _ => ⟨by simp, fun _ => mkVal_uescstr s i j info⟩)

theorem sameValue_leaf (v : Bytes) (i j : Option Nat) : SameValue (leafVal i v) (leafVal j v) :=
  sameValue_index _ _ _ _

theorem isValue_ne_nil {v : Bytes} (h : IsValue v) : v ≠ [] := by
  obtain ⟨c, q, rfl, _⟩ := IsValue.cons h; simp

/-- A value found inside a document cannot be told apart from the parsed text of that value. -/
theorem leaf_same_parse {v : Bytes} (h : IsValue v) (i : Option Nat) :
    ∃ w, parse v = .ok w ∧ SameValue (leafVal i v) w := by
  by_cases hk : kindOf v = .object ∨ kindOf v = .array
  · obtain ⟨h1, h2⟩ := pParse_cont (r := []) h hk 0
    rw [List.append_nil] at h1
    refine ⟨_, by rw [parse_eq, h1], sameValue_of (by simp [leafVal_json]) ?_ ?_⟩
    · rw [leafVal, mkVal_kind, mkVal_kind]
      rcases h2 with h2 | h2 <;> rw [h2] <;> decide
    · intro hs
      rw [leafVal_kind (isValue_ne_nil h)] at hs
      rw [hs] at hk; simp at hk
  · rw [not_or] at hk
    have h1 := pParse_scalar (r := []) h .nil hk 0
    rw [List.append_nil] at h1
    exact ⟨_, by rw [parse_eq, h1], sameValue_leaf v i (some 0)⟩

/-- The value read off a text, as found inside a document. -/
def SameAsText (v : Value) (t : Bytes) : Prop :=
  v.json = t ∧ v.kind = kindOf t ∧ ∃ w, parse t = .ok w ∧ SameValue v w

theorem leaf_sameAsText {v : Bytes} (h : IsValue v) (i : Option Nat) : SameAsText (leafVal i v) v :=
  ⟨leafVal_json _ _, leafVal_kind (isValue_ne_nil h) , leaf_same_parse h i⟩

theorem elemVals_same (es : List Elem) (hv : ∀ e ∈ es, IsValue e.val) :
    ∀ i, Aligned SameAsText (elemVals i es) (es.map Elem.val) := by
  induction es with
  | nil => intro i; exact .nil
  | cons e es ih =>
    intro i
    exact .cons (leaf_sameAsText (hv e (by simp)) _) (ih (fun x hx => hv x (by simp [hx])) _)

/-- The values of an object's members are read off the member texts. -/
def SamePair (p : Value × Value) (kv : Bytes × Bytes) : Prop := SameAsText p.1 kv.1 ∧ SameAsText p.2 kv.2

theorem memberVals_same (ms : List Member) (hw : ∀ m ∈ ms, m.Wf) (hv : ∀ m ∈ ms, IsValue m.val) :
    ∀ i, Aligned SamePair (memberVals i ms) (ms.map fun m => (m.key, m.val)) := by
  induction ms with
  | nil => intro i; exact .nil
  | cons m ms ih =>
    intro i
    exact .cons ⟨leaf_sameAsText (.str (hw m (by simp)).2.1) _, leaf_sameAsText (hv m (by simp)) _⟩
      (ih (fun x hx => hw x (by simp [hx])) (fun x hx => hv x (by simp [hx])) _)

/-- What `for_each` sees in an array text followed by anything. -/
theorem IsArray.vals {t r : Bytes} {vs : List Bytes} (h : IsArray t vs) (i : Nat) :
    ∃ q, t ++ r = c! '[' :: q ∧ Aligned SameAsText (Gjson.toks (i + 1) q) vs := by
  rcases h with ⟨w, hw, rfl, rfl⟩ | ⟨es, hne, hwf, hv, rfl, rfl⟩
  · exact ⟨w ++ c! ']' :: r, by simp, by rw [Ws.toks_close hw (.inr rfl)]; exact .nil⟩
  · exact ⟨elemsText es ++ c! ']' :: r, by simp, by
      rw [toks_elems (.inr rfl) hwf hv]; exact elemVals_same es hv _⟩

theorem IsObject.vals {t r : Bytes} {kvs : List (Bytes × Bytes)} (h : IsObject t kvs) (i : Nat) :
    ∃ q, t ++ r = c! '{' :: q ∧ Aligned SamePair (pairUp (Gjson.toks (i + 1) q)) kvs := by
  rcases h with ⟨w, hw, rfl, rfl⟩ | ⟨ms, hne, hwf, hv, rfl, rfl⟩
  · exact ⟨w ++ c! '}' :: r, by simp, by rw [Ws.toks_close hw (.inl rfl)]; exact .nil⟩
  · exact ⟨membersText ms ++ c! '}' :: r, by simp, by
      rw [toks_members (.inl rfl) hwf hv, pairUp_flat]; exact memberVals_same ms hwf hv _⟩

theorem runFold_visit {σ : Type} (f : σ → Value → Value → Res (σ × Bool)) (l : List (Value × Value)) :
    ∀ st, runFold f st l = visit (fun st p => f st p.1 p.2) st l := by
  induction l with
  | nil => intro st; rfl
  | cons x l ih =>
    intro st
    simp only [runFold, visit]
    cases h : f st x.1 x.2 with
    | error e => rfl
    | ok y => obtain ⟨st', m⟩ := y; simp only [ok_bind]; rw [ih]

theorem IsArray.isValue {t : Bytes} {vs : List Bytes} (h : IsArray t vs) : IsValue t := by
  rcases h with ⟨w, hw, rfl, rfl⟩ | ⟨es, hne, hwf, hv, rfl, rfl⟩
  · exact .arrEmpty hw
  · exact .arr hne hwf hv

theorem IsObject.isValue {t : Bytes} {kvs : List (Bytes × Bytes)} (h : IsObject t kvs) : IsValue t := by
  rcases h with ⟨w, hw, rfl, rfl⟩ | ⟨es, hne, hwf, hv, rfl, rfl⟩
  · exact .objEmpty hw
  · exact .obj hne hwf hv

theorem IsArray.kindOf {t : Bytes} {vs : List Bytes} (h : IsArray t vs) : kindOf t = .array := by
  rcases h with ⟨w, hw, rfl, rfl⟩ | ⟨es, hne, hwf, hv, rfl, rfl⟩ <;> rfl

theorem IsObject.kindOf {t : Bytes} {kvs : List (Bytes × Bytes)} (h : IsObject t kvs) : kindOf t = .object := by
  rcases h with ⟨w, hw, rfl, rfl⟩ | ⟨es, hne, hwf, hv, rfl, rfl⟩ <;> rfl

/-- `each` as a visit of the enumerated pairs. -/
theorem each_eq {σ : Type} {v : Value} {c : UInt8} {q : Bytes} (hj : v.json = c :: q)
    (hk : v.kind = .object ∨ v.kind = .array) (f : σ → Value → Value → Res (σ × Bool)) (st : σ) :
    v.each f st = visit (fun st p => f st p.1 p.2) st (eachPairs v.kind (toks 1 q)) := by
  unfold Value.each
  rw [if_neg (by rw [show v.exists = true from exists_json.2 (by rw [hj]; simp)]; simp),
    if_neg (by rcases hk with h | h <;> rw [h] <;> decide)]
  obtain ⟨j, h⟩ := forEach_at (kind := v.kind) (f := f) false st (At.zero v.json)
  rw [h]
  rw [← runFold_visit, hj]
  simp only [eachToks, Bool.false_eq_true, if_false, List.drop_succ_cons, List.drop_zero, Nat.zero_add]
  cases runFold f st (eachPairs v.kind (toks 1 q)) <;> rfl

theorem visit_collect (l : List Value) : ∀ acc : List Value,
    visit (ε := Fault) (fun arr (p : Value × Value) => .ok (arr ++ [p.2], true)) acc (l.map (Value.default, ·)) =
      .ok (acc ++ l) := by
  induction l with
  | nil => intro acc; simp [visit]
  | cons x l ih => intro acc; simp [visit, ih]

/-- `array` collects what `each` enumerates. -/
theorem array_eq {v : Value} {c : UInt8} {q : Bytes} (hj : v.json = c :: q)
    (hk : v.kind = .array) : v.array = .ok (toks 1 q) := by
  unfold Value.array
  rw [if_pos hk, each_eq hj (.inr hk), hk, eachPairs, if_neg (by decide)]
  exact visit_collect _ _

end Gjson
