import Verif.SpecMods
import Verif.Lemmas.Mod
import Verif.Lemmas.Prov
import Verif.Lemmas.Same
import Verif.Lemmas.Dot
import Verif.Lemmas.Lookup
import Verif.Lemmas.Total
import Verif.Props.Enumerate
/-
`@reverse`, `@flatten` and `@join` on JSON texts.
-/
namespace Gjson
open Spec

/-- What a modifier call gives when the modifier produces the value text `out`. -/
theorem get_mod_exact {n a m : Bytes} (hm : ModCall n a m) {text out : Bytes} (ho : modApply get n text a = .ok out)
    (hv : IsValue out) : ∃ r, get text m = .ok r ∧ SameAsText r out := by
  have hg := get_mod hm (t := []) (sep := 0) (rest := []) ⟨rfl, rfl⟩ text
  rw [List.append_nil, ho] at hg
  have hs := sameValue_owned (pParse_oneText out 0)
  obtain ⟨h4, h5, w, h6, h7⟩ := leaf_sameAsText hv (some 0)
  rw [parse_eq] at h6
  cases h6
  exact ⟨_, hg, (hs.json.trans h7.json.symm).trans h4, (hs.kind.trans h7.kind.symm).trans h5, _, parse_eq _, hs⟩

/-- A modifier call followed by a pipe and more. -/
theorem get_mod_pipe {n a m : Bytes} (hm : ModCall n a m) {text out : Bytes} (ho : modApply get n text a = .ok out)
    (hv : IsValue out) (rest : Bytes) : SameRes (get text (m ++ c! '|' :: rest)) (get out rest) := by
  have hg := get_mod hm (t := c! '|' :: rest) (sep := c! '|') (rest := rest) ⟨by decide, rfl, rfl⟩ text
  rw [ho] at hg
  simp only [ok_bind] at hg
  rw [if_neg (by decide)] at hg
  rw [hg]
  have hs := sameValue_owned (pParse_oneText out 0)
  obtain ⟨h4, h5, w, h6, h7⟩ := leaf_sameAsText hv (some 0)
  rw [parse_eq] at h6
  cases h6
  have hj : (jsonIntoOwned (pParse 0 out)).json = out := (hs.json.trans h7.json.symm).trans h4
  have := getIn_same (v := jsonIntoOwned (pParse 0 out)) (.inl rfl) rest
  rw [hj] at this
  exact this

/-- The elements of an array with their places. -/
def ElemAt (json : Bytes) (x : Value) (v : Bytes) : Prop := IsValue v ∧ ∃ i r, 0 < i ∧ x = leafVal (some i) v ∧ At json i (v ++ r)

theorem elemVals_at {json : Bytes} : ∀ {es : List Elem} {i : Nat} {r : Bytes}, 0 < i → (∀ e ∈ es, IsValue e.val) → At json i (elemsText es ++ r) →
    Aligned (ElemAt json) (elemVals i es) (es.map Elem.val)
  | [], _, _, _, _, _ => .nil
  | e :: es, i, r, hi, hv, hA => by
    have h1 : elemsText (e :: es) ++ r = e.pre ++ (e.val ++ (e.post ++ (match es with | [] => r | x :: y => c! ',' :: (elemsText (x :: y) ++ r)))) := by
      cases es <;> simp [elemsText, Elem.text]
    have hA1 := hA
    rw [h1] at hA1
    refine .cons ⟨hv e (by simp), _, _, by omega, rfl, hA1.append⟩ ?_
    cases es with
    | nil => exact .nil
    | cons x y =>
      refine elemVals_at (r := r) (by omega) (fun z hz => hv z (List.mem_cons_of_mem _ hz)) ?_
      have h2 : elemsText (e :: x :: y) ++ r = (e.text ++ [c! ',']) ++ (elemsText (x :: y) ++ r) := by simp [elemsText]
      rw [h2] at hA
      exact hA.append' (by simp)

/-- The members of an object with their places. -/
def MemberAt (json : Bytes) (p : Value × Value) (m : Member) : Prop :=
  m.Wf ∧ IsValue m.val ∧ ∃ i r, p = (leafVal (some i) m.key, leafVal (some (i + m.key.length + m.mid1.length + 1 + m.mid2.length)) m.val) ∧
    At json i ((m.key ++ (m.mid1 ++ c! ':' :: (m.mid2 ++ m.val))) ++ r)

theorem memberVals_at {json : Bytes} : ∀ {ms : List Member} {i : Nat} {r : Bytes}, (∀ m ∈ ms, m.Wf) → (∀ m ∈ ms, IsValue m.val) →
    At json i (membersText ms ++ r) → Aligned (MemberAt json) (memberVals i ms) ms
  | [], _, _, _, _, _ => .nil
  | m :: ms, i, r, hw, hv, hA => by
    have h1 : membersText (m :: ms) ++ r = m.pre ++ ((m.key ++ (m.mid1 ++ c! ':' :: (m.mid2 ++ m.val))) ++ (m.post ++ (match ms with | [] => r | x :: y => c! ',' :: (membersText (x :: y) ++ r)))) := by
      cases ms <;> simp [membersText, Member.text]
    have hA1 := hA
    rw [h1] at hA1
    refine .cons ⟨hw m (by simp), hv m (by simp), _, _, rfl, hA1.append⟩ ?_
    cases ms with
    | nil => exact .nil
    | cons x y =>
      refine memberVals_at (r := r) (fun z hz => hw z (List.mem_cons_of_mem _ hz)) (fun z hz => hv z (List.mem_cons_of_mem _ hz)) ?_
      have h2 : membersText (m :: x :: y) ++ r = (m.text ++ [c! ',']) ++ (membersText (x :: y) ++ r) := by simp [membersText]
      rw [h2] at hA
      exact hA.append' (by simp)

/-- `each` on a Value whose text begins with an array. -/
theorem each_array {v : Value} {t r : Bytes} {vs : List Bytes} (h : IsArray t vs) (hk : v.kind = .array) (hj : v.json = t ++ r) :
    ∃ vals, Aligned (ElemAt v.json) vals vs ∧ ∀ (σ : Type) (f : σ → Value → Value → Res (σ × Bool)) (st : σ),
      v.each f st = visit (fun st e => f st Value.default e) st vals := by
  have key : ∃ vals q, v.json = c! '[' :: q ∧ toks 1 q = vals ∧ Aligned (ElemAt v.json) vals vs := by
    rcases h with ⟨w, hw, rfl, rfl⟩ | ⟨es, hne, hwf, hv, rfl, rfl⟩
    · exact ⟨[], w ++ c! ']' :: r, by rw [hj]; simp, Ws.toks_close hw (.inr rfl) _, .nil⟩
    · have e : v.json = c! '[' :: (elemsText es ++ c! ']' :: r) := by rw [hj]; simp
      have hA := At.zero v.json
      rw (occs := .pos [2]) [e] at hA
      exact ⟨_, _, e, toks_elems (.inr rfl) hwf hv _, elemVals_at (by omega) hv hA.cons⟩
  obtain ⟨vals, q, h1, h2, h3⟩ := key
  refine ⟨vals, h3, fun σ f st => ?_⟩
  rw [each_eq h1 (.inr hk), hk, eachPairs, if_neg (by decide), h2]
  clear h2 h3
  induction vals generalizing st with
  | nil => rfl
  | cons x l ih =>
    simp only [List.map_cons, visit]
    cases h : f st Value.default x with
    | error e => rfl
    | ok y => obtain ⟨st', m⟩ := y; simp only; rw [ih]

/-- `each` on a Value whose text begins with an object. -/
theorem each_object {v : Value} {t r : Bytes} {kvs : List (Bytes × Bytes)} (h : IsObject t kvs) (hk : v.kind = .object) (hj : v.json = t ++ r) :
    ∃ ms pairs, Aligned (MemberAt v.json) pairs ms ∧ (ms.map fun m => (m.key, m.val)) = kvs ∧
      ∀ (σ : Type) (f : σ → Value → Value → Res (σ × Bool)) (st : σ), v.each f st = visit (fun st p => f st p.1 p.2) st pairs := by
  have key : ∃ ms pairs q, v.json = c! '{' :: q ∧ toks 1 q = flatPairs pairs ∧ Aligned (MemberAt v.json) pairs ms ∧ (ms.map fun m => (m.key, m.val)) = kvs := by
    rcases h with ⟨w, hw, rfl, rfl⟩ | ⟨ms, hne, hwf, hv, rfl, rfl⟩
    · exact ⟨[], [], w ++ c! '}' :: r, by rw [hj]; simp, Ws.toks_close hw (.inl rfl) _, .nil, rfl⟩
    · have e : v.json = c! '{' :: (membersText ms ++ c! '}' :: r) := by rw [hj]; simp
      have hA := At.zero v.json
      rw (occs := .pos [2]) [e] at hA
      exact ⟨ms, _, _, e, toks_members (.inl rfl) hwf hv _, memberVals_at hwf hv hA.cons, rfl⟩
  obtain ⟨ms, pairs, q, h1, h2, h3, h4⟩ := key
  refine ⟨ms, pairs, h3, h4, fun σ f st => ?_⟩
  rw [each_eq h1 (.inl hk), hk, eachPairs, if_pos rfl, h2, pairUp_flat]

/-- `each` on a Value whose text begins with these members. -/
theorem each_members {v : Value} {r : Bytes} {ms : List Member} (hwf : ∀ m ∈ ms, m.Wf) (hv : ∀ m ∈ ms, IsValue m.val)
    (hk : v.kind = .object) (hj : v.json = c! '{' :: (membersText ms ++ [c! '}']) ++ r) :
    ∃ pairs, Aligned (MemberAt v.json) pairs ms ∧
      ∀ (σ : Type) (f : σ → Value → Value → Res (σ × Bool)) (st : σ), v.each f st = visit (fun st p => f st p.1 p.2) st pairs := by
  have e : v.json = c! '{' :: (membersText ms ++ c! '}' :: r) := by rw [hj]; simp
  have hA := At.zero v.json
  rw (occs := .pos [2]) [e] at hA
  refine ⟨_, memberVals_at hwf hv hA.cons, fun σ f st => ?_⟩
  rw [each_eq e (.inl hk), hk, eachPairs, if_pos rfl, toks_members (.inl rfl) hwf hv _, pairUp_flat]

/-- `parse` of an array or object text with whitespace around it. -/
theorem parse_array {t doc : Bytes} {vs : List Bytes} (h : IsArray t vs) (hp : Padded t doc) :
    ∃ v r, parse doc = .ok v ∧ v.kind = .array ∧ v.slice = t ++ r ∧ v.json = t ++ r := by
  obtain ⟨w1, w2, hw1, hw2, rfl⟩ := hp
  obtain ⟨h1, _⟩ := pParse_cont (r := w2) (IsArray.isValue h) (.inr (IsArray.kindOf h)) (0 + w1.length)
  have hinfo : infoOf t = INFO_ARRAY := by
    rcases h with ⟨w, hw, rfl, rfl⟩ | ⟨es, hne, hwf, hv, rfl, rfl⟩ <;> rfl
  refine ⟨_, w2, by rw [parse_eq, pParse_ws hw1, h1], ?_, mkVal_slice _ _ _, mkVal_json _ _ _⟩
  rw [mkVal_kind, hinfo]; decide

theorem parse_object {t doc : Bytes} {kvs : List (Bytes × Bytes)} (h : IsObject t kvs) (hp : Padded t doc) :
    ∃ v r, parse doc = .ok v ∧ v.kind = .object ∧ v.slice = t ++ r ∧ v.json = t ++ r := by
  obtain ⟨w1, w2, hw1, hw2, rfl⟩ := hp
  obtain ⟨h1, _⟩ := pParse_cont (r := w2) (IsObject.isValue h) (.inl (IsObject.kindOf h)) (0 + w1.length)
  have hinfo : infoOf t = INFO_OBJECT := by
    rcases h with ⟨w, hw, rfl, rfl⟩ | ⟨es, hne, hwf, hv, rfl, rfl⟩ <;> rfl
  refine ⟨_, w2, by rw [parse_eq, pParse_ws hw1, h1], ?_, mkVal_slice _ _ _, mkVal_json _ _ _⟩
  rw [mkVal_kind, hinfo]; decide

theorem parse_scalar {t doc : Bytes} (h : IsValue t) (hk : kindOf t ≠ .object ∧ kindOf t ≠ .array) (hp : Padded t doc) :
    ∃ v, parse doc = .ok v ∧ v.kind = kindOf t ∧ v.slice = t := by
  obtain ⟨w1, w2, hw1, hw2, rfl⟩ := hp
  refine ⟨_, by rw [parse_eq, pParse_ws hw1, pParse_scalar h (Follow.ws' hw2) hk], ?_, ?_⟩
  · exact (leaf_sameAsText h _).2.1
  · exact mkVal_slice _ _ _

/-! ### Writing arrays and objects -/

/-- An element without whitespace. -/
def bare (v : Bytes) : Elem := ⟨[], v, []⟩

theorem bare_text (v : Bytes) : (bare v).text = v := by simp [bare, Elem.text]

theorem joinComma_elems : ∀ vs : List Bytes, joinComma vs = elemsText (vs.map bare)
  | [] => rfl
  | [v] => by simp [joinComma, elemsText, bare_text]
  | v :: w :: r => by
    have := joinComma_elems (w :: r)
    simp only [joinComma, List.map_cons, elemsText, bare_text] at this ⊢
    rw [this]; simp

theorem isArray_of_elems {es : List Elem} (hw : ∀ e ∈ es, e.Wf) (hv : ∀ e ∈ es, IsValue e.val) :
    IsArray ([c! '['] ++ elemsText es ++ [c! ']']) (es.map Elem.val) := by
  cases es with
  | nil => exact .inl ⟨[], by intro c hc; simp at hc, rfl, rfl⟩
  | cons e es => exact .inr ⟨_, by simp, hw, hv, by simp, rfl⟩

theorem isArray_join {vs : List Bytes} (h : ∀ v ∈ vs, IsValue v) : IsArray ([c! '['] ++ joinComma vs ++ [c! ']']) vs := by
  rw [joinComma_elems]
  have := isArray_of_elems (es := vs.map bare) (by simp [bare, Elem.Wf, Ws]) (by simpa [bare] using h)
  simpa [List.map_map, Function.comp_def, bare] using this

/-- A member without whitespace around it. -/
def Member.inner (m : Member) : Bytes := m.key ++ (m.mid1 ++ c! ':' :: (m.mid2 ++ m.val))
def Member.trim (m : Member) : Member := ⟨[], m.key, m.mid1, m.mid2, m.val, []⟩

theorem joinComma_members : ∀ ms : List Member, joinComma (ms.map Member.inner) = membersText (ms.map Member.trim)
  | [] => rfl
  | [m] => by simp [joinComma, membersText, Member.inner, Member.trim, Member.text]
  | m :: n :: r => by
    have := joinComma_members (n :: r)
    simp only [joinComma, List.map_cons, membersText] at this ⊢
    rw [this]; simp [Member.inner, Member.trim, Member.text]

theorem isObject_of_members {ms : List Member} (hw : ∀ e ∈ ms, e.Wf) (hv : ∀ e ∈ ms, IsValue e.val) :
    IsObject ([c! '{'] ++ membersText ms ++ [c! '}']) (ms.map fun m => (m.key, m.val)) := by
  cases ms with
  | nil => exact .inl ⟨[], by intro c hc; simp at hc, rfl, rfl⟩
  | cons e es => exact .inr ⟨_, by simp, hw, hv, by simp, rfl⟩

/-! ### `@reverse` -/

theorem modReverse_array {t doc : Bytes} {vs : List Bytes} (h : IsArray t vs) (hp : Padded t doc) :
    modReverse doc = .ok ([c! '['] ++ joinComma vs.reverse ++ [c! ']']) := by
  obtain ⟨v, r, h1, h2, h3, h4⟩ := parse_array h hp
  obtain ⟨vals, h5, h6⟩ := each_array h h2 h4
  unfold modReverse
  rw [h1]
  simp only [ok_bind, h2, h6]
  have key : ∀ acc : List Bytes, visit (fun (st : List Bytes) (e : Value) => do
        let vindex ← unwrapIndex e
        let s ← slice v.slice vindex (vindex + e.slice.length)
        .ok (st ++ [s], true)) acc vals = .ok (acc ++ vs) := by
    have hs : v.slice = v.json := by rw [h3, h4]
    rw [hs]
    clear h6 h
    induction h5 with
    | nil => intro acc; simp [visit]
    | @cons _ b _ bs hx _ ih =>
      intro acc
      obtain ⟨hv, i, r, _, rfl, hA⟩ := hx
      have e1 : unwrapIndex (leafVal (some i) b) = .ok i := by unfold unwrapIndex leafVal; rw [mkVal_index]
      simp only [visit, e1, ok_bind]
      simp only [leafVal, mkVal_slice, hA.slice]
      simp only [ok_bind]
      rw [if_pos trivial]
      simpa using ih (acc ++ [b])
  rw [key]
  rfl

theorem reverse_members {doc t r : Bytes} {ms : List Member} {v : Value} {pairs : List (Value × Value)} (h1 : parse doc = .ok v)
    (h2 : v.kind = .object) (h3 : v.slice = t ++ r) (h4 : v.json = t ++ r) (h5 : Aligned (MemberAt v.json) pairs ms)
    (h7 : ∀ (σ : Type) (f : σ → Value → Value → Res (σ × Bool)) (st : σ), v.each f st = visit (fun st p => f st p.1 p.2) st pairs) :
    modReverse doc = .ok ([c! '{'] ++ joinComma (ms.map Member.inner).reverse ++ [c! '}']) := by
  unfold modReverse
  rw [h1]
  simp only [ok_bind, h2, h7]
  have key : ∀ acc : List Bytes, visit (fun (st : List Bytes) (p : Value × Value) => do
        let kindex ← unwrapIndex p.1
        let vindex ← unwrapIndex p.2
        let s ← slice v.slice kindex (vindex + p.2.slice.length)
        .ok (st ++ [s], true)) acc pairs = .ok (acc ++ ms.map Member.inner) := by
    have hs : v.slice = v.json := by rw [h3, h4]
    rw [hs]
    clear h7
    induction h5 with
    | nil => intro acc; simp [visit]
    | @cons _ m _ bs hx _ ih =>
      intro acc
      obtain ⟨_, _, i, r, rfl, hA⟩ := hx
      have e1 : ∀ i b, unwrapIndex (leafVal (some i) b) = .ok i := by intro i b; unfold unwrapIndex leafVal; rw [mkVal_index]
      have e2 := hA.slice' (j := i + m.key.length + m.mid1.length + 1 + m.mid2.length + m.val.length) (by simp; omega)
      simp only [visit, e1, ok_bind]
      simp only [leafVal, mkVal_slice, e2]
      simp only [ok_bind]
      rw [if_pos trivial]
      simpa [Member.inner] using ih (acc ++ [Member.inner m])
  rw [key]
  rfl

theorem modReverse_members {doc : Bytes} {ms : List Member} (hw : ∀ m ∈ ms, m.Wf) (hv : ∀ m ∈ ms, IsValue m.val)
    (hp : Padded (c! '{' :: (membersText ms ++ [c! '}'])) doc) :
    modReverse doc = .ok ([c! '{'] ++ joinComma (ms.map Member.inner).reverse ++ [c! '}']) := by
  have ho := isObject_of_members hw hv
  rw [List.append_assoc] at ho
  obtain ⟨v, r, h1, h2, h3, h4⟩ := parse_object ho hp
  obtain ⟨pairs, h5, h7⟩ := each_members hw hv h2 h4
  exact reverse_members h1 h2 h3 h4 h5 h7

theorem modReverse_object {t doc : Bytes} {kvs : List (Bytes × Bytes)} (h : IsObject t kvs) (hp : Padded t doc) :
    ∃ ms : List Member, (∀ m ∈ ms, m.Wf ∧ IsValue m.val) ∧ (ms.map fun m => (m.key, m.val)) = kvs ∧
      modReverse doc = .ok ([c! '{'] ++ joinComma (ms.map Member.inner).reverse ++ [c! '}']) := by
  obtain ⟨v, r, h1, h2, h3, h4⟩ := parse_object h hp
  obtain ⟨ms, pairs, h5, h6, h7⟩ := each_object h h2 h4
  refine ⟨ms, ?_, h6, ?_⟩
  · clear h6 h7
    induction h5 with
    | nil => simp
    | cons hx _ ih => exact List.forall_mem_cons.2 ⟨⟨hx.1, hx.2.1⟩, ih⟩
  exact reverse_members h1 h2 h3 h4 h5 h7

theorem modReverse_scalar {t doc : Bytes} (h : IsValue t) (hk : kindOf t ≠ .object ∧ kindOf t ≠ .array) (hp : Padded t doc) :
    modReverse doc = .ok t := by
  obtain ⟨v, h1, h2, h3⟩ := parse_scalar h hk hp
  unfold modReverse
  rw [h1]
  simp only [ok_bind]
  rw [← h2] at hk
  rw [h3]
  cases hv : v.kind <;> simp_all

/-! ### `unwrap` -/

theorem unwrap_bracket {a z : UInt8} (b : Bytes) (ha : a = c! '[' ∨ a = c! '{') (hz : c! ' ' < z) : unwrap (a :: (b ++ [z])) = b := by
  have h1 : dropBlank (a :: (b ++ [z])) = a :: (b ++ [z]) := by
    unfold dropBlank; rw [if_neg (by rcases ha with rfl | rfl <;> decide)]
  have h2 : (a :: (b ++ [z])).reverse = z :: (b.reverse ++ [a]) := by simp
  have h3 : dropBlank (z :: (b.reverse ++ [a])) = z :: (b.reverse ++ [a]) := by
    unfold dropBlank; rw [if_neg (by grind)]
  unfold unwrap
  simp only [h1, h2, h3]
  have h4 : (z :: (b.reverse ++ [a])).reverse = a :: (b ++ [z]) := by simp
  rw [h4]
  cases b with
  | nil => simp [ha, sub]
  | cons x b => simp [ha, sub]

/-! ### `@flatten` -/

theorem elemsText_append : ∀ {es fs : List Elem}, es ≠ [] → fs ≠ [] → elemsText (es ++ fs) = elemsText es ++ c! ',' :: elemsText fs
  | [], _, h, _ => absurd rfl h
  | [e], f :: fs, _, _ => by simp [elemsText]
  | [e], [], _, h => absurd rfl h
  | e :: e' :: es, fs, _, h => by
    have := elemsText_append (es := e' :: es) (by simp) h
    simp only [List.cons_append, elemsText] at this ⊢
    rw [this]; simp

theorem elemsText_ne {e : Elem} {es : List Elem} (h : IsValue e.val) : elemsText (e :: es) ≠ [] := by
  have := IsValue.ne_nil h
  have h2 : e.val <:+: elemsText (e :: es) := by
    cases es with
    | nil => exact ⟨e.pre, e.post, by simp [elemsText, Elem.text]⟩
    | cons f es => exact ⟨e.pre, e.post ++ c! ',' :: elemsText (f :: es), by simp [elemsText, Elem.text]⟩
  intro h3
  rw [h3] at h2
  exact this (List.infix_nil.1 h2)

/-- The state of the loop of `@flatten`: the text written so far and a counter. -/
def FlatState (es : List Elem) (st : Bytes × Nat) : Prop := st.1 = [c! '['] ++ elemsText es ∧ (st.2 > 0 ↔ es ≠ [])

/-- One piece is added to the output. -/
def flatPush (raw : Bytes) (st : Bytes × Nat) : Bytes × Nat :=
  if raw.length > 0 then ((if st.2 > 0 then st.1 ++ [c! ','] else st.1) ++ raw, st.2 + 1) else st

theorem flatPush_state {es fs : List Elem} {st : Bytes × Nat} (h : FlatState es st) (hf : ∀ e ∈ fs, IsValue e.val) :
    FlatState (es ++ fs) (flatPush (elemsText fs) st) := by
  unfold flatPush
  cases fs with
  | nil => simpa [elemsText] using h
  | cons f fs =>
    rw [if_pos (List.length_pos_iff.2 (elemsText_ne (hf f (by simp))))]
    refine ⟨?_, by simp⟩
    by_cases he : es = []
    · subst he
      have : ¬ st.2 > 0 := fun h' => h.2.1 h' rfl
      simp only [if_neg this, h.1]
      simp [elemsText]
    · have : st.2 > 0 := h.2.2 he
      simp only [if_pos this, h.1]
      rw [elemsText_append he (by simp)]
      simp

/-- The text of one element for `@flatten`. -/
def flatRaw (deep : Bool) (inner : Bytes → Res Bytes) (value : Value) : Res Bytes :=
  if value.kind = .array then
    if deep then inner value.json >>= fun x => .ok (unwrap x)
    else .ok (unwrap value.json)
  else .ok value.slice

/-- The callback of `@flatten`. -/
def flatStep (deep : Bool) (inner : Bytes → Res Bytes) (st : Bytes × Nat) (value : Value) : Res ((Bytes × Nat) × Bool) :=
  flatRaw deep inner value >>= fun raw => .ok (flatPush raw st, true)

theorem flatStep_push {deep : Bool} {inner : Bytes → Res Bytes} {value : Value} {raw : Bytes}
    (h : flatRaw deep inner value = .ok raw) (st : Bytes × Nat) : flatStep deep inner st value = .ok (flatPush raw st, true) := by
  unfold flatStep
  rw [h]
  rfl

theorem flatPush_if (raw : Bytes) (st : Bytes × Nat) : (if raw.length > 0 then
      Except.ok (ε := Fault) (((if st.2 > 0 then st.1 ++ [c! ','] else st.1) ++ raw, st.2 + 1), true)
    else .ok (st, true)) = .ok (flatPush raw st, true) := by
  unfold flatPush; split <;> rfl

theorem flatten_run {rec : GetFn} {n : Nat} {t doc arg : Bytes} {vs : List Bytes} (h : IsArray t vs) (hp : Padded t doc) {d : Value} {deep : Bool}
    (hd : rec arg b!"deep" = .ok d) (hb : d.bool = .ok deep) :
    ∃ json vals, json.length ≤ doc.length ∧ Aligned (ElemAt json) vals vs ∧ modFlattenN rec (n + 1) doc arg =
      (visit (flatStep deep fun j => modFlattenN rec n j arg) ([c! '['], 0) vals >>= fun st => .ok (st.1 ++ [c! ']'])) := by
  obtain ⟨v, r, h1, h2, h3, h4⟩ := parse_array h hp
  obtain ⟨vals, h5, h6⟩ := each_array h h2 h4
  refine ⟨v.json, vals, ?_, h5, ?_⟩
  · have := pParse_slice doc 0
    rw [parse_eq] at h1
    cases h1
    rw [this.1]; exact this.2
  · rw (occs := .pos [1]) [modFlattenN.eq_2]
    rw [h1]
    simp only [ok_bind, hd, hb, h6]
    rw [if_neg (by rw [h2]; decide)]
    congr 1
    congr 1
    funext st e
    simp only [flatPush_if]
    unfold flatStep flatRaw
    split
    · split
      · show _ = (modFlattenN rec n e.json arg >>= fun x => .ok (unwrap x)) >>= fun raw => .ok (flatPush raw st, true)
        cases modFlattenN rec n e.json arg <;> rfl
      · rfl
    · rfl

theorem leafVal_kind' {v : Bytes} (h : IsValue v) (i : Option Nat) : (leafVal i v).kind = kindOf v := (leaf_sameAsText h i).2.1

/-- Pieces for the shallow case: the elements with their whitespace. -/
theorem flatten_shallow {json : Bytes} {inner : Bytes → Res Bytes} {vs ls : List Bytes} (hf : Flattened vs ls) :
    ∀ {vals : List Value}, Aligned (ElemAt json) vals vs → (∀ v ∈ vs, IsArray v [] → v = b!"[]") → ∀ {es : List Elem} {st : Bytes × Nat}, FlatState es st →
    ∃ fs st', visit (flatStep false inner) st vals = .ok st' ∧ FlatState (es ++ fs) st' ∧ (∀ e ∈ fs, e.Wf ∧ IsValue e.val) ∧ fs.map Elem.val = ls := by
  induction hf with
  | nil =>
    intro vals h _ es st hst
    cases h
    exact ⟨[], st, rfl, by simpa using hst, by simp, rfl⟩
  | @keep v r s hk _ ih =>
    intro vals h hc es st hst
    cases h with
    | cons hx hr =>
      obtain ⟨hv, i, q, _, rfl, hA⟩ := hx
      have e1 := flatStep_push (deep := false) (inner := inner) (value := leafVal (some i) v) (raw := v)
        (by rw [flatRaw, if_neg (by rw [leafVal_kind' hv]; exact hk)]; simp [leafVal]) st
      have hst' := flatPush_state (fs := [bare v]) hst (by simpa [bare] using hv)
      simp only [elemsText, bare_text] at hst'
      obtain ⟨fs, st', h1, h2, h3, h4⟩ := ih hr (fun z hz => hc z (List.mem_cons_of_mem _ hz)) hst'
      refine ⟨bare v :: fs, st', ?_, by simpa using h2, ?_, by simp [h4, bare]⟩
      · simp only [visit, e1]; rw [if_pos trivial]; exact h1
      · exact List.forall_mem_cons.2 ⟨⟨by simp [bare, Elem.Wf, Ws], hv⟩, h3⟩
  | @splice v ws r s ha _ ih =>
    intro vals h hc es st hst
    cases h with
    | cons hx hr =>
      obtain ⟨hv, i, q, _, rfl, hA⟩ := hx
      have hfs : ∃ gs : List Elem, unwrap v = elemsText gs ∧ (∀ e ∈ gs, e.Wf ∧ IsValue e.val) ∧ gs.map Elem.val = ws := by
        rcases ha with ⟨w, hw, rfl, rfl⟩ | ⟨gs, hne, hwf, hgv, rfl, rfl⟩
        · have := hc _ List.mem_cons_self (.inl ⟨w, hw, rfl, rfl⟩)
          rw [this]
          exact ⟨[], by decide, by simp, rfl⟩
        · exact ⟨gs, unwrap_bracket _ (.inl rfl) (by decide), fun e he => ⟨hwf e he, hgv e he⟩, rfl⟩
      obtain ⟨gs, hg1, hg2, hg3⟩ := hfs
      have e1 := flatStep_push (deep := false) (inner := inner) (value := leafVal (some i) v) (raw := unwrap v)
        (by rw [flatRaw, if_pos (by rw [leafVal_kind' hv]; exact IsArray.kindOf ha)]; simp [leafVal]) st
      have hst' := flatPush_state (fs := gs) hst (fun e he => (hg2 e he).2)
      rw [← hg1] at hst'
      obtain ⟨fs, st', h1, h2, h3, h4⟩ := ih hr (fun z hz => hc z (List.mem_cons_of_mem _ hz)) hst'
      refine ⟨gs ++ fs, st', ?_, by simpa using h2, ?_, by simp [h4, hg3]⟩
      · simp only [visit, e1]; rw [if_pos trivial]; exact h1
      · intro e he
        rcases List.mem_append.1 he with he | he
        · exact hg2 e he
        · exact h3 e he

theorem modFlatten_shallow {t doc arg : Bytes} {vs ls : List Bytes} (h : IsArray t vs) (hp : Padded t doc) (hf : Flattened vs ls)
    (hc : ∀ v ∈ vs, IsArray v [] → v = b!"[]") {d : Value} (hd : get arg b!"deep" = .ok d) (hb : d.bool = .ok false) :
    ∃ out, modFlatten get doc arg = .ok out ∧ IsArray out ls := by
  obtain ⟨json, vals, _, h1, h2⟩ := flatten_run (n := doc.length) h hp hd hb
  obtain ⟨fs, st', h3, h4, h5, rfl⟩ := flatten_shallow (inner := fun j => modFlattenN get doc.length j arg) hf h1 hc (es := []) (st := ([c! '['], 0)) ⟨rfl, by simp⟩
  refine ⟨_, by unfold modFlatten; rw [h2, h3]; rfl, ?_⟩
  rw [h4.1, List.nil_append]
  exact isArray_of_elems (fun e he => (h5 e he).1) (fun e he => (h5 e he).2)

theorem flatten_deep {json : Bytes} {inner : Bytes → Res Bytes} {N : Nat} (hl : json.length ≤ N)
    (hin : ∀ v ws ls, v.length < N → IsArray v ws → DeepFlattened ws ls → inner v = .ok ([c! '['] ++ joinComma ls ++ [c! ']']) ∧ ∀ l ∈ ls, IsValue l) :
    ∀ {vs ls : List Bytes}, DeepFlattened vs ls → ∀ {vals : List Value}, Aligned (ElemAt json) vals vs → ∀ {es : List Elem} {st : Bytes × Nat}, FlatState es st →
    ∃ st', visit (flatStep true inner) st vals = .ok st' ∧ FlatState (es ++ ls.map bare) st' ∧ ∀ l ∈ ls, IsValue l := by
  intro vs ls hf
  induction hf with
  | nil =>
    intro vals h es st hst
    cases h
    exact ⟨st, rfl, by simpa using hst, by simp⟩
  | @keep v r s hk _ ih =>
    intro vals h es st hst
    cases h with
    | cons hx hr =>
      obtain ⟨hv, i, q, _, rfl, hA⟩ := hx
      have e1 := flatStep_push (deep := true) (inner := inner) (value := leafVal (some i) v) (raw := v)
        (by rw [flatRaw, if_neg (by rw [leafVal_kind' hv]; exact hk)]; simp [leafVal]) st
      have hst' := flatPush_state (fs := [bare v]) hst (by simpa [bare] using hv)
      simp only [elemsText, bare_text] at hst'
      obtain ⟨st', h1, h2, h3⟩ := ih hr hst'
      refine ⟨st', ?_, by simpa using h2, ?_⟩
      · simp only [visit, e1]; rw [if_pos trivial]; exact h1
      · exact List.forall_mem_cons.2 ⟨hv, h3⟩
  | @splice v ws ls r s ha hd _ _ ih =>
    intro vals h es st hst
    cases h with
    | cons hx hr =>
      obtain ⟨hv, i, q, hi, rfl, hA⟩ := hx
      have hlen := hA.len
      rw [List.length_append] at hlen
      obtain ⟨g1, g2⟩ := hin v ws ls (by omega) ha hd
      have e1 := flatStep_push (deep := true) (inner := inner) (value := leafVal (some i) v) (raw := joinComma ls)
        (by rw [flatRaw, if_pos (by rw [leafVal_kind' hv]; exact IsArray.kindOf ha), if_pos rfl, leafVal_json, g1]
            simp only [ok_bind]
            rw [List.append_assoc]
            exact congrArg Except.ok (unwrap_bracket _ (.inl rfl) (by decide))) st
      have hst' := flatPush_state (fs := ls.map bare) hst (by simpa [bare] using g2)
      rw [← joinComma_elems] at hst'
      obtain ⟨st', h1, h2, h3⟩ := ih hr hst'
      refine ⟨st', ?_, by simpa using h2, ?_⟩
      · simp only [visit, e1]; rw [if_pos trivial]; exact h1
      · intro e he
        rcases List.mem_append.1 he with he | he
        · exact g2 e he
        · exact h3 e he

theorem modFlattenN_deep {arg : Bytes} {d : Value} (hd : get arg b!"deep" = .ok d) (hb : d.bool = .ok true) :
    ∀ (n : Nat) {t doc : Bytes} {vs ls : List Bytes}, doc.length < n → IsArray t vs → Padded t doc → DeepFlattened vs ls →
    modFlattenN get n doc arg = .ok ([c! '['] ++ joinComma ls ++ [c! ']']) ∧ ∀ l ∈ ls, IsValue l
  | 0, _, _, _, _, h, _, _, _ => by omega
  | n + 1, t, doc, vs, ls, hl, h, hp, hf => by
    obtain ⟨json, vals, h0, h1, h2⟩ := flatten_run (n := n) h hp hd hb
    obtain ⟨st', h3, h4, h5⟩ := flatten_deep (inner := fun j => modFlattenN get n j arg) (N := doc.length) h0
      (fun v ws ls' hlt ha hd' => modFlattenN_deep hd hb n (by omega) ha ⟨[], [], by simp [Ws], by simp [Ws], by simp⟩ hd')
      hf h1 (es := []) (st := ([c! '['], 0)) ⟨rfl, by simp⟩
    refine ⟨?_, h5⟩
    rw [h2, h3]
    simp only [ok_bind]
    rw [h4.1, List.nil_append, joinComma_elems]

theorem modFlatten_other {t doc arg : Bytes} (h : IsValue t) (hk : kindOf t ≠ .array) (hp : Padded t doc) :
    modFlatten get doc arg = .ok doc := by
  have hkind : ∃ v, parse doc = .ok v ∧ v.kind ≠ .array := by
    by_cases ho : kindOf t = .object
    · obtain ⟨kvs, ho⟩ : ∃ kvs, IsObject t kvs := C28_covers t h ho
      obtain ⟨v, _, h1, h2, _⟩ := parse_object ho hp
      exact ⟨v, h1, by rw [h2]; decide⟩
    · obtain ⟨v, h1, h2, _⟩ := parse_scalar h ⟨ho, hk⟩ hp
      exact ⟨v, h1, by rw [h2]; exact hk⟩
  obtain ⟨v, h1, h2⟩ := hkind
  unfold modFlatten modFlattenN
  rw [h1]
  simp only [ok_bind]
  rw [if_pos h2]

/-! ### `@join` -/

theorem isObject_ms {v : Bytes} {kvs : List (Bytes × Bytes)} (h : IsObject v kvs) : ∀ m ∈ kvs, StrLit m.1 ∧ IsValue m.2 := by
  rcases h with ⟨w, hw, rfl, rfl⟩ | ⟨ms, hne, hwf, hv, rfl, rfl⟩
  · simp
  · intro m hm
    obtain ⟨x, hx, rfl⟩ := List.mem_map.1 hm
    exact ⟨(hwf x hx).2.1, hv x hx⟩

/-- The two tables of `@join` for the members `acc`. -/
def joinState (dec : Bytes → Bytes) (acc : List (Bytes × Bytes)) : List (Bytes × Bytes) × List (Bytes × Bytes) :=
  (acc.map fun m => (m.1, dec m.1), acc.map fun m => (dec m.1, m.2))

theorem join_put (dec : Bytes → Bytes) (k v : Bytes) (acc : List (Bytes × Bytes)) :
    ((if (mapGet (dec k) (joinState dec acc).2).isNone then (joinState dec acc).1 ++ [(k, dec k)] else (joinState dec acc).1),
      mapInsert (dec k) v (joinState dec acc).2) = joinState dec (putMember dec (k, v) acc) := by
  induction acc with
  | nil => rfl
  | cons n r ih =>
    simp only [joinState, List.map_cons, mapGet, mapInsert, putMember] at ih ⊢
    by_cases h : dec n.1 = dec k
    · simp [h]
    · simp only [if_neg h]
      have h1 := congrArg Prod.fst ih
      have h2 := congrArg Prod.snd ih
      simp only at h1 h2
      rw [h2]
      by_cases hg : (mapGet (dec k) (r.map fun m => (dec m.1, m.2))).isNone
      · simp only [if_pos hg] at h1 ⊢
        simpa [← h1] using hg
      · simp only [if_neg hg] at h1 ⊢
        simpa [← h1] using hg

theorem putMember_decs (dec : Bytes → Bytes) (m : Bytes × Bytes) : ∀ acc : List (Bytes × Bytes),
    (∀ x ∈ putMember dec m acc, dec x.1 = dec m.1 ∨ ∃ y ∈ acc, dec x.1 = dec y.1)
  | [] => by simp [putMember]
  | n :: r => by
    intro x hx
    unfold putMember at hx
    split at hx
    · rcases List.mem_cons.1 hx with rfl | hx
      · exact .inr ⟨n, by simp, rfl⟩
      · exact .inr ⟨x, by simp [hx], rfl⟩
    · rcases List.mem_cons.1 hx with rfl | hx
      · exact .inr ⟨x, by simp, rfl⟩
      · rcases putMember_decs dec m r x hx with h | ⟨y, hy, h⟩
        · exact .inl h
        · exact .inr ⟨y, by simp [hy], h⟩

theorem putMember_nodup (dec : Bytes → Bytes) (m : Bytes × Bytes) : ∀ {acc : List (Bytes × Bytes)},
    acc.Pairwise (fun a b => dec a.1 ≠ dec b.1) → (putMember dec m acc).Pairwise (fun a b => dec a.1 ≠ dec b.1)
  | [], _ => by simp [putMember]
  | n :: r, h => by
    obtain ⟨h1, h2⟩ := List.pairwise_cons.1 h
    unfold putMember
    split
    · exact List.pairwise_cons.2 ⟨h1, h2⟩
    · rename_i hne
      refine List.pairwise_cons.2 ⟨fun x hx => ?_, putMember_nodup dec m h2⟩
      rcases putMember_decs dec m r x hx with h | ⟨y, hy, h⟩
      · rw [h]; exact hne
      · rw [h]; exact h1 y hy

theorem putMember_mem {P : Bytes → Prop} {Q : Bytes → Prop} {dec : Bytes → Bytes} {m : Bytes × Bytes} (hm : P m.1 ∧ Q m.2) :
    ∀ {acc : List (Bytes × Bytes)}, (∀ x ∈ acc, P x.1 ∧ Q x.2) → ∀ x ∈ putMember dec m acc, P x.1 ∧ Q x.2
  | [], _ => by simpa [putMember] using hm
  | n :: r, h => by
    have hn := h n (by simp)
    have hr : ∀ x ∈ r, P x.1 ∧ Q x.2 := fun x hx => h x (by simp [hx])
    unfold putMember
    split
    · exact List.forall_mem_cons.2 ⟨⟨hn.1, hm.2⟩, hr⟩
    · exact List.forall_mem_cons.2 ⟨hn, putMember_mem hm hr⟩

theorem joinMembers_eq (dec : Bytes → Bytes) {acc : List (Bytes × Bytes)} (h : acc.Pairwise (fun a b => dec a.1 ≠ dec b.1)) :
    joinMembers (joinState dec acc).2 (joinState dec acc).1 = .ok (acc.map fun m => m.1 ++ [c! ':'] ++ m.2) := by
  have hget : ∀ {acc : List (Bytes × Bytes)}, acc.Pairwise (fun a b => dec a.1 ≠ dec b.1) → ∀ m ∈ acc, mapGet (dec m.1) (acc.map fun m => (dec m.1, m.2)) = some m.2 := by
    intro acc h
    induction acc with
    | nil => simp
    | cons n r ih =>
      obtain ⟨h1, h2⟩ := List.pairwise_cons.1 h
      intro m hm
      simp only [List.map_cons, mapGet]
      rcases List.mem_cons.1 hm with rfl | hm
      · simp
      · rw [if_neg (h1 m hm)]; exact ih h2 m hm
  have key : ∀ l : List (Bytes × Bytes), (∀ m ∈ l, m ∈ acc) →
      joinMembers (joinState dec acc).2 (l.map fun m => (m.1, dec m.1)) = .ok (l.map fun m => m.1 ++ [c! ':'] ++ m.2) := by
    intro l
    induction l with
    | nil => intro _; rfl
    | cons n r ih =>
      intro hl
      simp only [List.map_cons, joinMembers]
      have := hget h n (hl n (by simp))
      simp only [joinState] at this ⊢
      rw [this]
      simp only
      have ih' := ih fun m hm => hl m (List.mem_cons_of_mem _ hm)
      simp only [joinState] at ih'
      rw [ih']
      rfl
  exact key acc (fun _ h => h)

/-- The callback for the members of one object. -/
def joinPut (st : List (Bytes × Bytes) × List (Bytes × Bytes)) (key value : Value) : Res ((List (Bytes × Bytes) × List (Bytes × Bytes)) × Bool) := do
  let k ← key.str
  let keys := if (mapGet k st.2).isNone then st.1 ++ [(key.json, k)] else st.1
  .ok ((keys, mapInsert k value.json st.2), true)

theorem join_object {json : Bytes} {dec : Bytes → Bytes} {ms : List Member} {pairs : List (Value × Value)} (h : Aligned (MemberAt json) pairs ms)
    (hd : ∀ m ∈ ms, KeyIs m.key (dec m.key)) : ∀ acc : List (Bytes × Bytes),
    visit (fun st p => joinPut st p.1 p.2) (joinState dec acc) pairs =
      .ok (joinState dec ((ms.map fun m => (m.key, m.val)).foldl (fun acc m => putMember dec m acc) acc)) := by
  induction h with
  | nil => intro acc; rfl
  | @cons p m ps ms hx _ ih =>
    intro acc
    obtain ⟨hw, hv, i, r, rfl, _⟩ := hx
    have hk := hd m (by simp)
    have hstr : (leafVal (some i) m.key).str = .ok (dec m.key) := by
      obtain ⟨b, hb, e⟩ := hw.2.1
      rw [e] at hk ⊢
      rw [leafVal_str hb, (keyIs_lit hb).1 hk]
    have e1 : joinPut (joinState dec acc) (leafVal (some i) m.key) (leafVal (some (i + m.key.length + m.mid1.length + 1 + m.mid2.length)) m.val) =
        .ok (joinState dec (putMember dec (m.key, m.val) acc), true) := by
      unfold joinPut
      rw [hstr]
      simp only [ok_bind, leafVal_json]
      rw [← join_put]
    simp only [visit, e1, List.map_cons, List.foldl_cons]
    rw [if_pos trivial]
    exact ih (fun x hx => hd x (List.mem_cons_of_mem _ hx)) _

/-- The callback for one element. -/
def joinStep (st : List (Bytes × Bytes) × List (Bytes × Bytes)) (value : Value) : Res ((List (Bytes × Bytes) × List (Bytes × Bytes)) × Bool) :=
  if value.kind ≠ .object then .ok (st, true)
  else value.each joinPut st >>= fun st => .ok (st, true)

theorem join_elems {json : Bytes} {dec : Bytes → Bytes} {vs : List Bytes} {mss : List (List (Bytes × Bytes))} (ho : ObjectsOf vs mss) :
    ∀ {vals : List Value}, Aligned (ElemAt json) vals vs → (∀ ms ∈ mss, ∀ m ∈ ms, KeyIs m.1 (dec m.1)) → ∀ acc : List (Bytes × Bytes),
    visit joinStep (joinState dec acc) vals = .ok (joinState dec (mss.flatten.foldl (fun acc m => putMember dec m acc) acc)) := by
  induction ho with
  | nil => intro vals h _ acc; cases h; rfl
  | @skip v r s hk _ ih =>
    intro vals h hd acc
    cases h with
    | cons hx hr =>
      obtain ⟨hv, i, q, _, rfl, hA⟩ := hx
      have e1 : joinStep (joinState dec acc) (leafVal (some i) v) = .ok (joinState dec acc, true) := by
        unfold joinStep
        rw [if_pos (by rw [leafVal_kind' hv]; exact hk)]
      simp only [visit, e1]
      rw [if_pos trivial]
      exact ih hr hd acc
  | @take v ms r s hobj _ ih =>
    intro vals h hd acc
    cases h with
    | cons hx hr =>
      obtain ⟨hv, i, q, _, rfl, hA⟩ := hx
      have hk : (leafVal (some i) v).kind = .object := by rw [leafVal_kind' hv]; exact IsObject.kindOf hobj
      obtain ⟨mem, pairs, h1, h2, h3⟩ := each_object (r := []) hobj hk (by rw [leafVal_json]; simp)
      have e1 : joinStep (joinState dec acc) (leafVal (some i) v) =
          .ok (joinState dec (ms.foldl (fun acc m => putMember dec m acc) acc), true) := by
        unfold joinStep
        rw [if_neg (by rw [hk]; simp), h3, join_object h1 (dec := dec) (fun m hm => hd ms (by simp) (m.key, m.val) (by
          rw [← h2]; exact List.mem_map.2 ⟨m, hm, rfl⟩)), h2]
        rfl
      simp only [visit, e1]
      rw [if_pos trivial, List.flatten_cons, List.foldl_append]
      exact ih hr (fun x hx => hd x (List.mem_cons_of_mem _ hx)) _

theorem mergeMembers_nodup (dec : Bytes → Bytes) (ms : List (Bytes × Bytes)) : (mergeMembers dec ms).Pairwise (fun a b => dec a.1 ≠ dec b.1) := by
  have : ∀ (l acc : List (Bytes × Bytes)), acc.Pairwise (fun a b => dec a.1 ≠ dec b.1) →
      (l.foldl (fun acc m => putMember dec m acc) acc).Pairwise (fun a b => dec a.1 ≠ dec b.1) := by
    intro l
    induction l with
    | nil => exact fun _ h => h
    | cons m l ih => exact fun acc h => ih _ (putMember_nodup dec m h)
  exact this ms [] .nil

theorem mergeMembers_mem {P Q : Bytes → Prop} {dec : Bytes → Bytes} {ms : List (Bytes × Bytes)} (h : ∀ m ∈ ms, P m.1 ∧ Q m.2) :
    ∀ m ∈ mergeMembers dec ms, P m.1 ∧ Q m.2 := by
  have : ∀ (l acc : List (Bytes × Bytes)), (∀ m ∈ l, P m.1 ∧ Q m.2) → (∀ m ∈ acc, P m.1 ∧ Q m.2) →
      ∀ m ∈ (l.foldl (fun acc m => putMember dec m acc) acc), P m.1 ∧ Q m.2 := by
    intro l
    induction l with
    | nil => exact fun _ _ h => h
    | cons m l ih => exact fun acc hl h => ih _ (fun x hx => hl x (List.mem_cons_of_mem _ hx)) (putMember_mem (hl m (by simp)) h)
  exact this ms [] h (by simp)

theorem objectsOf_lit {vs : List Bytes} {mss : List (List (Bytes × Bytes))} (ho : ObjectsOf vs mss) :
    ∀ m ∈ mss.flatten, StrLit m.1 ∧ IsValue m.2 := by
  induction ho with
  | nil => simp
  | skip _ _ ih => exact ih
  | take h _ ih =>
    intro m hm
    rw [List.flatten_cons, List.mem_append] at hm
    rcases hm with hm | hm
    · exact isObject_ms h m hm
    · exact ih m hm

/-- A member without whitespace. -/
def bareMember (m : Bytes × Bytes) : Member := ⟨[], m.1, [], [], m.2, []⟩

theorem joinComma_bare (ms : List (Bytes × Bytes)) : joinComma (ms.map fun m => m.1 ++ [c! ':'] ++ m.2) = membersText (ms.map bareMember) := by
  have := joinComma_members (ms.map bareMember)
  rw [List.map_map, List.map_map] at this
  have e1 : (Member.inner ∘ bareMember) = fun m : Bytes × Bytes => m.1 ++ [c! ':'] ++ m.2 := by
    funext m; simp [Member.inner, bareMember]
  have e2 : (Member.trim ∘ bareMember) = bareMember := by funext m; rfl
  rw [e1, e2] at this
  exact this

/-- The exact text of `@join`. -/
theorem modJoin_merged {t doc arg : Bytes} {vs : List Bytes} {mss : List (List (Bytes × Bytes))} (h : IsArray t vs) (hp : Padded t doc)
    (ho : ObjectsOf vs mss) {dec : Bytes → Bytes} (hd : ∀ m ∈ mss.flatten, KeyIs m.1 (dec m.1))
    {p : Value} (hp1 : get arg b!"preserve" = .ok p) (hp2 : p.bool = .ok false) :
    modJoin get doc arg = .ok ([c! '{'] ++ joinComma ((mergeMembers dec mss.flatten).map fun m => m.1 ++ [c! ':'] ++ m.2) ++ [c! '}']) := by
  obtain ⟨v, r, h1, h2, h3, h4⟩ := parse_array h hp
  obtain ⟨vals, h5, h6⟩ := each_array h h2 h4
  have hd' : ∀ ms ∈ mss, ∀ m ∈ ms, KeyIs m.1 (dec m.1) := fun ms hms m hm => hd m (List.mem_flatten.2 ⟨ms, hms, hm⟩)
  have hrun := join_elems ho h5 hd' []
  have hm := joinMembers_eq dec (mergeMembers_nodup dec mss.flatten)
  unfold modJoin
  rw [h1]
  simp only [ok_bind]
  rw [if_neg (by rw [h2]; decide)]
  simp only [hp1, hp2, ok_bind, h6]
  rw [if_neg (by decide)]
  have e : visit (fun (st : List (Bytes × Bytes) × List (Bytes × Bytes)) (value : Value) =>
        if value.kind ≠ .object then .ok (st, true)
        else do
          let st ← value.each
            (fun (st : List (Bytes × Bytes) × List (Bytes × Bytes)) key value => do
              let k ← key.str
              let keys := if (mapGet k st.2).isNone then st.1 ++ [(key.json, k)] else st.1
              .ok ((keys, mapInsert k value.json st.2), true)) st
          .ok (st, true)) ([], []) vals = .ok (joinState dec (mergeMembers dec mss.flatten)) := hrun
  rw [e]
  simp only [ok_bind]
  have hm' := hm
  rw [hm']
  rfl

theorem modJoin_merge {t doc arg : Bytes} {vs : List Bytes} {mss : List (List (Bytes × Bytes))} (h : IsArray t vs) (hp : Padded t doc)
    (ho : ObjectsOf vs mss) {dec : Bytes → Bytes} (hd : ∀ m ∈ mss.flatten, KeyIs m.1 (dec m.1))
    {p : Value} (hp1 : get arg b!"preserve" = .ok p) (hp2 : p.bool = .ok false) :
    ∃ out, modJoin get doc arg = .ok out ∧ IsObject out (mergeMembers dec mss.flatten) := by
  have hlit := mergeMembers_mem (P := StrLit) (Q := IsValue) (dec := dec) (objectsOf_lit ho)
  refine ⟨_, modJoin_merged h hp ho hd hp1 hp2, ?_⟩
  rw [joinComma_bare]
  have := isObject_of_members (ms := (mergeMembers dec mss.flatten).map bareMember)
    (by
      intro e he
      obtain ⟨m, hm, rfl⟩ := List.mem_map.1 he
      exact ⟨by simp [bareMember, Ws], (hlit m hm).1, by simp [bareMember, Ws], by simp [bareMember, Ws], by simp [bareMember, Ws]⟩)
    (by
      intro e he
      obtain ⟨m, hm, rfl⟩ := List.mem_map.1 he
      exact (hlit m hm).2)
  simpa [List.map_map, Function.comp_def, bareMember] using this

theorem membersText_append : ∀ {es fs : List Member}, es ≠ [] → fs ≠ [] → membersText (es ++ fs) = membersText es ++ c! ',' :: membersText fs
  | [], _, h, _ => absurd rfl h
  | [e], f :: fs, _, _ => by simp [membersText]
  | [e], [], _, h => absurd rfl h
  | e :: e' :: es, fs, _, h => by
    have := membersText_append (es := e' :: es) (by simp) h
    simp only [List.cons_append, membersText] at this ⊢
    rw [this]; simp

/-- The callback of `@join` with `preserve`. -/
def keepStep (st : Bytes × Nat) (value : Value) : Res ((Bytes × Nat) × Bool) :=
  if value.kind ≠ .object then .ok (st, true)
  else
    let out := if st.2 > 0 then st.1 ++ [c! ','] else st.1
    .ok ((out ++ unwrap value.slice, st.2 + 1), true)

/-- The state of the loop of `@join` with `preserve`. -/
def KeepState (ms : List Member) (st : Bytes × Nat) : Prop := st.1 = [c! '{'] ++ membersText ms ∧ (st.2 > 0 ↔ ms ≠ [])

theorem keep_elems {json : Bytes} {vs : List Bytes} {mss : List (List (Bytes × Bytes))} (ho : ObjectsOf vs mss) :
    ∀ {vals : List Value}, Aligned (ElemAt json) vals vs → [] ∉ mss → ∀ {es : List Member} {st : Bytes × Nat}, KeepState es st →
    ∃ fs st', visit keepStep st vals = .ok st' ∧ KeepState (es ++ fs) st' ∧ (∀ m ∈ fs, m.Wf ∧ IsValue m.val) ∧
      (fs.map fun m => (m.key, m.val)) = mss.flatten := by
  induction ho with
  | nil => intro vals h _ es st hst; cases h; exact ⟨[], st, rfl, by simpa using hst, by simp, rfl⟩
  | @skip v r s hk _ ih =>
    intro vals h hne es st hst
    cases h with
    | cons hx hr =>
      obtain ⟨hv, i, q, _, rfl, hA⟩ := hx
      have e1 : keepStep st (leafVal (some i) v) = .ok (st, true) := by
        unfold keepStep
        rw [if_pos (by rw [leafVal_kind' hv]; exact hk)]
      obtain ⟨fs, st', h1, h2⟩ := ih hr hne hst
      refine ⟨fs, st', ?_, h2⟩
      simp only [visit, e1]
      rw [if_pos trivial]
      exact h1
  | @take v ms r s hobj _ ih =>
    intro vals h hne es st hst
    cases h with
    | cons hx hr =>
      obtain ⟨hv, i, q, _, rfl, hA⟩ := hx
      have hk : (leafVal (some i) v).kind = .object := by rw [leafVal_kind' hv]; exact IsObject.kindOf hobj
      rcases hobj with ⟨w, hw, rfl, rfl⟩ | ⟨gs, hgne, hwf, hgv, rfl, rfl⟩
      · exact absurd (by simp) hne
      · have e1 : keepStep st (leafVal (some i) (c! '{' :: (membersText gs ++ [c! '}']))) =
            .ok (((if st.2 > 0 then st.1 ++ [c! ','] else st.1) ++ membersText gs, st.2 + 1), true) := by
          unfold keepStep
          rw [if_neg (by rw [hk]; simp)]
          simp only [leafVal, mkVal_slice]
          rw [unwrap_bracket _ (.inr rfl) (by decide)]
        have hst' : KeepState (es ++ gs) ((if st.2 > 0 then st.1 ++ [c! ','] else st.1) ++ membersText gs, st.2 + 1) := by
          refine ⟨?_, by simp [hgne]⟩
          by_cases he : es = []
          · subst he
            have : ¬ st.2 > 0 := fun h' => hst.2.1 h' rfl
            simp only [if_neg this, hst.1]
            simp [membersText]
          · have : st.2 > 0 := hst.2.2 he
            simp only [if_pos this, hst.1]
            rw [membersText_append he hgne]
            simp
        obtain ⟨fs, st', h1, h2, h3, h4⟩ := ih hr (fun h => hne (List.mem_cons_of_mem _ h)) hst'
        refine ⟨gs ++ fs, st', ?_, by simpa using h2, ?_, by simp [h4]⟩
        · simp only [visit, e1]
          rw [if_pos trivial]
          exact h1
        · intro m hm
          rcases List.mem_append.1 hm with hm | hm
          · exact ⟨hwf m hm, hgv m hm⟩
          · exact h3 m hm

theorem modJoin_preserve {t doc arg : Bytes} {vs : List Bytes} {mss : List (List (Bytes × Bytes))} (h : IsArray t vs) (hp : Padded t doc)
    (ho : ObjectsOf vs mss) (hne : [] ∉ mss) {p : Value} (hp1 : get arg b!"preserve" = .ok p) (hp2 : p.bool = .ok true) :
    ∃ out, modJoin get doc arg = .ok out ∧ IsObject out mss.flatten := by
  obtain ⟨v, r, h1, h2, h3, h4⟩ := parse_array h hp
  obtain ⟨vals, h5, h6⟩ := each_array h h2 h4
  obtain ⟨fs, st', g1, g2, g3, g4⟩ := keep_elems ho h5 hne (es := []) (st := ([c! '{'], 0)) ⟨rfl, by simp⟩
  refine ⟨st'.1 ++ [c! '}'], ?_, ?_⟩
  · unfold modJoin
    rw [h1]
    simp only [ok_bind]
    rw [if_neg (by rw [h2]; decide)]
    simp only [hp1, hp2, ok_bind, h6]
    rw [if_pos trivial]
    have e : visit (fun (st : Bytes × Nat) (value : Value) =>
        if value.kind ≠ .object then .ok (st, true)
        else .ok (((if st.2 > 0 then st.1 ++ [c! ','] else st.1) ++ unwrap value.slice, st.2 + 1), true)) ([c! '{'], 0) vals = .ok st' := g1
    rw [e]
    rfl
  · rw [g2.1, List.nil_append, ← g4]
    exact isObject_of_members (fun m hm => (g3 m hm).1) (fun m hm => (g3 m hm).2)

theorem modJoin_other {t doc arg : Bytes} (h : IsValue t) (hk : kindOf t ≠ .array) (hp : Padded t doc) :
    modJoin get doc arg = .ok doc := by
  have hkind : ∃ v, parse doc = .ok v ∧ v.kind ≠ .array := by
    by_cases ho : kindOf t = .object
    · obtain ⟨kvs, ho⟩ := C28_covers t h ho
      obtain ⟨v, _, h1, h2, _⟩ := parse_object ho hp
      exact ⟨v, h1, by rw [h2]; decide⟩
    · obtain ⟨v, h1, h2, _⟩ := parse_scalar h ⟨ho, hk⟩ hp
      exact ⟨v, h1, by rw [h2]; exact hk⟩
  obtain ⟨v, h1, h2⟩ := hkind
  unfold modJoin
  rw [h1]
  simp only [ok_bind]
  rw [if_pos h2]

end Gjson
