import Verif.Lemmas.Reorder
import Verif.Lemmas.PrettyOk
import Verif.Model.Depth
import Verif.SpecDepth
/-
How deep the recursion of `valid` goes.
-/
namespace Gjson
open Spec

/-- A run that reads on to the text `r` when `p` holds, and otherwise hits the limit of
the recursion. -/
def Ends (json : Bytes) (x : Res (Bool × Nat)) (p : Prop) (r : Bytes) : Prop :=
  (p ∧ ∃ j, x = .ok (true, j) ∧ At json j r) ∨ (¬ p ∧ x = outOfFuel)

theorem Ends.congr {json : Bytes} {x : Res (Bool × Nat)} {p q : Prop} {r : Bytes} (h : Ends json x p r) (hpq : p ↔ q) :
    Ends json x q r := by
  rcases h with ⟨h1, h2⟩ | ⟨h1, h2⟩
  · exact .inl ⟨hpq.1 h1, h2⟩
  · exact .inr ⟨fun h => h1 (hpq.2 h), h2⟩

/-! ### JSON values -/

theorem anyLoop_ws {rec : Nat → Res (Bool × Nat)} {json : Bytes} : ∀ {w s : Bytes} {n i : Nat}, Ws w → At json i (w ++ s) →
    validAnyLoop rec json (n + w.length) i = validAnyLoop rec json n (i + w.length)
  | [], _, _, _, _, _ => by simp
  | c :: w, s, n, i, hw, h => by
    have h1 : IsWs c := hw c (by simp)
    have : n + (c :: w).length = (n + w.length) + 1 := by simp; omega
    rw [this]
    conv_lhs => unfold validAnyLoop
    rw [if_pos (At.lt h), At.idx h]
    simp only [ok_bind]
    rw [if_pos ((isspace_iff c).2 h1), anyLoop_ws (s := s) (fun x hx => hw x (by simp [hx])) (At.cons h)]
    congr 1
    simp; omega

/-- Scalars need no recursion. -/
theorem vAny_leaf {rec : Nat → Res (Bool × Nat)} {json : Bytes} {n i : Nat} {c : UInt8} {q : Bytes} (h : At json i (c :: q))
    (hw : ¬ IsWs c) (h1 : c ≠ c! '{') (h2 : c ≠ c! '[') (d : Nat) :
    VRef json (validAnyLoop rec json (n + 1) i) (pAny (d + 1) (c :: q)) := by
  unfold validAnyLoop pAny
  rw [if_pos h.lt, h.idx]
  simp only [ok_bind]
  rw [if_neg (by simpa using (not_congr (isspace_iff c)).2 hw), pWs_cons_not hw]
  simp only
  rw [if_neg h1, if_neg h1, if_neg h2, if_neg h2]
  by_cases c3 : c = c! '"'
  · rw [if_pos c3, if_pos c3]; exact validString_at h
  rw [if_neg c3, if_neg c3]
  by_cases c4 : c = c! 't'
  · rw [if_pos c4, if_pos c4]; exact validLit_at h
  rw [if_neg c4, if_neg c4]
  by_cases c5 : c = c! 'f'
  · rw [if_pos c5, if_pos c5]; exact validLit_at h
  rw [if_neg c5, if_neg c5]
  by_cases c6 : c = c! 'n'
  · rw [if_pos c6, if_pos c6]; exact validLit_at h
  rw [if_neg c6, if_neg c6]
  by_cases c7 : c = c! '-' ∨ (c ≥ c! '0' ∧ c ≤ c! '9')
  · rw [if_pos c7, if_pos (by unfold IsDigit; exact c7)]; exact validNumber_at h
  · rw [if_neg c7, if_neg (by unfold IsDigit; exact c7)]; exact ⟨_, rfl⟩

theorem follow_elems {es : List Elem} {r : Bytes} :
    Follow ((match es with | [] => [] | _ => c! ',' :: elemsText es) ++ c! ']' :: r) := by
  cases es with
  | nil => exact .brack
  | cons => exact .comma

theorem follow_members {ms : List Member} {r : Bytes} :
    Follow ((match ms with | [] => [] | _ => c! ',' :: membersText ms) ++ c! '}' :: r) := by
  cases ms with
  | nil => exact .brace
  | cons => exact .comma

theorem arrLoop_ends {json : Bytes} {any : Nat → Res (Bool × Nat)} {P : Elem → Prop} :
    ∀ {es : List Elem} {n i : Nat} {r w : Bytes} {e : Elem}, Ws w → e.Wf → (∀ e ∈ es, e.Wf) →
      (∀ x, x = e ∨ x ∈ es → ∀ i w q, At json i (w ++ (x.val ++ q)) → Ws w → Follow q → Ends json (any i) (P x) q) →
      At json i (w ++ (e.val ++ (e.post ++ ((match es with | [] => [] | _ => c! ',' :: elemsText es) ++ c! ']' :: r)))) →
      es.length < n → Ends json (validArrayLoop any json n i) (∀ x, x = e ∨ x ∈ es → P x) r
  | _, 0, _, _, _, _, _, _, _, _, _, h => by omega
  | es, n + 1, i, r, w, e, hw, he, hes, ha, h, hn => by
    unfold validArrayLoop
    rcases ha e (.inl rfl) i w _ h hw (Follow.ws he.2 follow_elems) with ⟨hp, j, h1, h2⟩ | ⟨hp, h1⟩
    · rw [h1]
      simp only [ok_bind, Bool.not_true, Bool.false_eq_true, if_false]
      obtain ⟨k, hk, hat⟩ := stripWs_at h2
      rw [hk]
      simp only [ok_bind]
      rw [pWs_append he.2] at hat
      cases es with
      | nil =>
        simp only [List.nil_append] at hat
        rw [pWs_cons_not (by decide)] at hat
        rw [if_neg hat.ne, hat.idx]
        simp only [ok_bind]
        rw [if_pos trivial]
        exact .inl ⟨by simpa using hp, _, rfl, hat.cons⟩
      | cons f es =>
        simp only [List.cons_append] at hat
        rw [pWs_cons_not (by decide)] at hat
        rw [if_neg hat.ne, hat.idx]
        simp only [ok_bind]
        rw [if_neg (by decide), if_neg (by decide)]
        have hff := hes f (by simp)
        have hat' := hat.cons
        rw [elemsText_cons, Elem.text] at hat'
        simp only [List.append_assoc] at hat'
        have := arrLoop_ends (es := es) (n := n) (i := k + 1) (r := r) (w := f.pre) (e := f) hff.1 hff
          (fun x hx => hes x (by simp [hx])) (fun x hx => ha x (.inr (by simpa using hx))) hat' (by simpa using hn)
        refine this.congr ⟨fun h x hx => ?_, fun h x hx => h x (.inr (by simpa using hx))⟩
        rcases hx with rfl | hx
        · exact hp
        · exact h x (by simpa using hx)
    · rw [h1]
      exact .inr ⟨fun h => hp (h e (.inl rfl)), rfl⟩

theorem objLoop_ends {json : Bytes} {any : Nat → Res (Bool × Nat)} {P : Member → Prop} :
    ∀ {ms : List Member} {n i : Nat} {r : Bytes} {m : Member}, m.Wf → (∀ m ∈ ms, m.Wf) →
      (∀ x, x = m ∨ x ∈ ms → ∀ i w q, At json i (w ++ (x.val ++ q)) → Ws w → Follow q → Ends json (any i) (P x) q) →
      At json i (pWs (membersText (m :: ms) ++ c! '}' :: r)) →
      ms.length < n → Ends json (validObjectLoop any json n i) (∀ x, x = m ∨ x ∈ ms → P x) r
  | _, 0, _, _, _, _, _, _, _, h => by omega
  | ms, n + 1, i, r, m, hm, hms, ha, h, hn => by
    obtain ⟨e1, b, hb, e2⟩ := membersText_pWs (ms := ms) (q := c! '}' :: r) hm
    rw [e1, e2] at h
    obtain ⟨_, _, hm1, hm2, hp2⟩ := hm
    unfold validObjectLoop
    rw [h.idx]
    simp only [ok_bind]
    rw [if_neg (by decide)]
    have h1 := validString_at h
    rw [pStr_complete hb] at h1
    obtain ⟨j, h1, h2⟩ := h1
    rw [h1]
    simp only [ok_bind, Bool.not_true, Bool.false_eq_true, if_false]
    obtain ⟨k, hk, hat⟩ := stripWs_at h2
    rw [pWs_append hm1, pWs_cons_not (by decide)] at hat
    rw [hk]
    simp only [ok_bind]
    rw [if_neg hat.ne, hat.idx]
    simp only [ok_bind]
    rw [if_neg (by decide)]
    rcases ha m (.inl rfl) (k + 1) m.mid2 _ hat.cons hm2 (Follow.ws hp2 follow_members) with ⟨hp, j, h3, h4⟩ | ⟨hp, h3⟩
    · rw [h3]
      simp only [ok_bind, Bool.not_true, Bool.false_eq_true, if_false]
      obtain ⟨l, hl, hat⟩ := stripWs_at h4
      rw [pWs_append hp2] at hat
      rw [hl]
      simp only [ok_bind]
      cases ms with
      | nil =>
        simp only [List.nil_append] at hat
        rw [pWs_cons_not (by decide)] at hat
        rw [if_neg hat.ne, hat.idx]
        simp only [ok_bind]
        rw [if_pos trivial]
        exact .inl ⟨by simpa using hp, _, rfl, hat.cons⟩
      | cons f ms =>
        simp only [List.cons_append] at hat
        rw [pWs_cons_not (by decide)] at hat
        rw [if_neg hat.ne, hat.idx]
        simp only [ok_bind]
        rw [if_neg (by decide), if_neg (by decide)]
        obtain ⟨l', hl', hat'⟩ := stripWs_at hat.cons
        rw [hl']
        simp only [ok_bind]
        have hne : l' ≠ json.length := by
          obtain ⟨e3, b, _, e4⟩ := membersText_pWs (ms := ms) (q := c! '}' :: r) (hms f (by simp))
          have := hat'
          rw [e3, e4] at this
          exact this.ne
        rw [if_neg hne]
        have := objLoop_ends (ms := ms) (n := n) (i := l') (r := r) (m := f) (hms f (by simp))
          (fun x hx => hms x (by simp [hx])) (fun x hx => ha x (.inr (by simpa using hx))) hat' (by simpa using hn)
        refine this.congr ⟨fun h x hx => ?_, fun h x hx => h x (.inr (by simpa using hx))⟩
        rcases hx with rfl | hx
        · exact hp
        · exact h x (by simpa using hx)
    · rw [h3]
      exact .inr ⟨fun h => hp (h m (.inl rfl)), rfl⟩

theorem validAny_skip {json : Bytes} {n i : Nat} {w v r : Bytes} {c : UInt8} {q : Bytes} (h : At json i (w ++ (v ++ r))) (hw : Ws w) (hv : v = c :: q) :
    ∃ k j, validAny json (n + 1) i = validAnyLoop (validAny json n) json (k + 1) j ∧ At json j (c :: (q ++ r)) := by
  have hl := h.len
  subst hv
  refine ⟨json.length - w.length, i + w.length, ?_, h.append⟩
  rw [← anyLoop_ws hw h]
  unfold validAny
  congr 1
  simp at hl
  omega

theorem elemLevels_le {es : List Doc} {n : Nat} : elemLevels es ≤ n ↔ ∀ d ∈ es, d.levels ≤ n := by
  induction es with
  | nil => simp [elemLevels]
  | cons d r ih => simp only [elemLevels, Nat.max_le, ih, List.mem_cons, forall_eq_or_imp]

theorem memLevels_le {ms : List (Bytes × Doc)} {n : Nat} : memLevels ms ≤ n ↔ ∀ m ∈ ms, m.2.levels ≤ n := by
  induction ms with
  | nil => simp [memLevels]
  | cons d r ih => simp only [memLevels, Nat.max_le, ih, List.mem_cons, forall_eq_or_imp]

theorem Spec.Doc.levels_pos (d : Doc) : 0 < d.levels := by
  cases d <;> simp [Doc.levels]

theorem anyLoop_arr {rec : Nat → Res (Bool × Nat)} {json : Bytes} {k j : Nat} {s : Bytes} (h : At json j (c! '[' :: s)) :
    validAnyLoop rec json (k + 1) j = validArray rec json j := by
  unfold validAnyLoop
  rw [if_pos h.lt, h.idx]
  simp only [ok_bind]
  rw [if_neg (by decide), if_neg (by decide), if_pos trivial]

theorem anyLoop_obj {rec : Nat → Res (Bool × Nat)} {json : Bytes} {k j : Nat} {s : Bytes} (h : At json j (c! '{' :: s)) :
    validAnyLoop rec json (k + 1) j = validObject rec json j := by
  unfold validAnyLoop
  rw [if_pos h.lt, h.idx]
  simp only [ok_bind]
  rw [if_neg (by decide), if_pos trivial]

theorem elems_len {es : List Elem} : (∀ e ∈ es, IsValue e.val) → es.length ≤ (elemsText es).length := by
  induction es with
  | nil => simp
  | cons e es ih =>
    intro hv
    rw [elemsText_cons]
    obtain ⟨c, q, hq, _⟩ := IsValue.cons (hv e (by simp))
    have := ih (fun x hx => hv x (by simp [hx]))
    cases es <;> simp [Elem.text, hq] <;> simp at this <;> omega

theorem members_len (ms : List Member) : ms.length ≤ (membersText ms).length := by
  induction ms with
  | nil => simp
  | cons e es ih =>
    rw [membersText_cons]
    cases es <;> simp [Member.text] <;> simp at ih <;> omega

/-- On a value `valid_any` needs just as many nested calls as there are values one inside
the other. -/
theorem validAny_ends {json v : Bytes} {d : Doc} (h : Denotes v d) : ∀ {n i : Nat} {w r : Bytes}, At json i (w ++ (v ++ r)) → Ws w → Follow r →
    Ends json (validAny json n i) (d.levels ≤ n) r := by
  induction h with
  | @leaf t hv ho ha =>
    intro n i w r h hw hr
    cases n with
    | zero => exact .inr ⟨by simp [Doc.levels], rfl⟩
    | succ n =>
      obtain ⟨c, q, rfl, hc⟩ := IsValue.cons hv
      obtain ⟨k, j, h1, h2⟩ := validAny_skip (n := n) h hw rfl
      have h3 := vAny_leaf (rec := validAny json n) (n := k) h2 hc.not_ws (by rintro rfl; exact ho (by simp [kindOf])) (by rintro rfl; exact ha (by simp [kindOf])) (c :: q).length
      have h4 := pAny_complete hv (d := (c :: q).length + 1) (by omega) hr
      rw [List.cons_append] at h4
      rw [h4, ← h1] at h3
      exact .inl ⟨by simp [Doc.levels], h3⟩
  | @arrEmpty w' hw' =>
    intro n i w r h hw hr
    cases n with
    | zero => exact .inr ⟨by simp [Doc.levels], rfl⟩
    | succ n =>
      obtain ⟨k, j, h1, h2⟩ := validAny_skip (n := n) h hw rfl
      rw [h1, anyLoop_arr h2]
      unfold validArray
      obtain ⟨l, h3, h4⟩ := stripWs_at h2.cons
      rw [List.append_assoc, pWs_append hw'] at h4
      simp only [List.cons_append, List.nil_append] at h4
      rw [pWs_cons_not (by decide)] at h4
      rw [h3]
      simp only [ok_bind]
      rw [if_neg h4.ne, h4.idx]
      simp only [ok_bind]
      rw [if_pos trivial]
      exact .inl ⟨by simp [Doc.levels, elemLevels], _, rfl, h4.cons⟩
  | @objEmpty w' hw' =>
    intro n i w r h hw hr
    cases n with
    | zero => exact .inr ⟨by simp [Doc.levels], rfl⟩
    | succ n =>
      obtain ⟨k, j, h1, h2⟩ := validAny_skip (n := n) h hw rfl
      rw [h1, anyLoop_obj h2]
      unfold validObject
      obtain ⟨l, h3, h4⟩ := stripWs_at h2.cons
      rw [List.append_assoc, pWs_append hw'] at h4
      simp only [List.cons_append, List.nil_append] at h4
      rw [pWs_cons_not (by decide)] at h4
      rw [h3]
      simp only [ok_bind]
      rw [if_neg h4.ne, h4.idx]
      simp only [ok_bind]
      rw [if_pos trivial]
      exact .inl ⟨by simp [Doc.levels, memLevels], _, rfl, h4.cons⟩
  | @arr es h0 hw1 hv ih =>
    intro n i w r h hw hr
    cases n with
    | zero => exact .inr ⟨by simp [Doc.levels], rfl⟩
    | succ n =>
      obtain ⟨k, j, h1, h2⟩ := validAny_skip (n := n) h hw rfl
      rw [h1, anyLoop_arr h2]
      have hlen := h2.len
      cases es with
      | nil => exact absurd rfl h0
      | cons e es =>
        have hel := elems_len (es := es.map Prod.fst) (by
          intro x hx
          obtain ⟨y, hy, rfl⟩ := List.mem_map.1 hx
          exact value_of_denotes (hv y (by simp [hy])))
        have hwf := hw1 e (by simp)
        obtain ⟨c, q, hq, hc⟩ := IsValue.cons (value_of_denotes (hv e (by simp)))
        unfold validArray
        obtain ⟨l, h3, h4⟩ := stripWs_at h2.cons
        rw [List.map_cons, elemsText_cons, Elem.text] at h4
        simp only [List.append_assoc, List.cons_append, List.nil_append] at h4
        rw [pWs_append hwf.1, hq, List.cons_append, pWs_cons_not hc.not_ws] at h4
        rw [h3]
        simp only [ok_bind]
        rw [if_neg h4.ne, h4.idx]
        simp only [ok_bind]
        rw [if_neg (by unfold StartsValue IsDigit at hc; grind)]
        rw [← List.cons_append, ← hq] at h4
        have := arrLoop_ends (any := validAny json n) (P := fun x => ∀ y ∈ e :: es, y.1 = x → y.2.levels ≤ n) (es := es.map Prod.fst) (n := json.length + 1) (i := l) (r := r)
          (w := []) (e := e.1) ws_nil hwf (by
            intro x hx
            obtain ⟨y, hy, rfl⟩ := List.mem_map.1 hx
            exact hw1 y (by simp [hy])) ?_ h4 (by
              have : (elemsText (es.map Prod.fst)).length ≤ (elemsText ((e :: es).map Prod.fst)).length := by
                rw [List.map_cons, elemsText_cons]
                cases es <;> simp [elemsText]; omega
              simp at hlen hel this ⊢
              omega)
        · refine this.congr ?_
          simp only [Doc.levels, List.map_cons, Nat.add_le_add_iff_right]
          rw [elemLevels_le]
          constructor
          · intro h d hd
            rw [← List.map_cons] at hd
            obtain ⟨y, hy, rfl⟩ := List.mem_map.1 hd
            refine h y.1 ?_ y hy rfl
            rcases List.mem_cons.1 hy with rfl | hy
            · exact .inl rfl
            · exact .inr (List.mem_map_of_mem hy)
          · intro h x _ y hy _
            refine h _ ?_
            rw [← List.map_cons]
            exact List.mem_map_of_mem hy
        · intro x hx i w q hat hw hq
          obtain ⟨y, hy, rfl⟩ : ∃ y ∈ e :: es, y.1 = x := by
            rcases hx with rfl | hx
            · exact ⟨e, by simp, rfl⟩
            · obtain ⟨y, hy, rfl⟩ := List.mem_map.1 hx
              exact ⟨y, by simp [hy], rfl⟩
          refine (ih y hy (n := n) hat hw hq).congr ⟨fun h z hz e => ?_, fun h => h y hy rfl⟩
          have := denotes_fun (hv z hz) (d' := y.2) (e ▸ hv y hy)
          rwa [this]
  | @obj ms h0 hw1 hv ih =>
    intro n i w r h hw hr
    cases n with
    | zero => exact .inr ⟨by simp [Doc.levels], rfl⟩
    | succ n =>
      obtain ⟨k, j, h1, h2⟩ := validAny_skip (n := n) h hw rfl
      rw [h1, anyLoop_obj h2]
      have hlen := h2.len
      cases ms with
      | nil => exact absurd rfl h0
      | cons m ms =>
        have hel := members_len (ms.map Prod.fst)
        have hwf := hw1 m (by simp)
        unfold validObject
        obtain ⟨l, h3, h4⟩ := stripWs_at h2.cons
        rw [List.append_assoc] at h4
        simp only [List.cons_append, List.nil_append] at h4
        rw [h3]
        simp only [ok_bind]
        obtain ⟨e1, b, hb, e2⟩ := membersText_pWs (ms := ms.map Prod.fst) (q := c! '}' :: r) hwf
        have h5 := h4
        rw [List.map_cons, e1, e2] at h5
        rw [if_neg h5.ne, h5.idx]
        simp only [ok_bind]
        rw [if_neg (by decide)]
        have := objLoop_ends (any := validAny json n) (P := fun x => ∀ y ∈ m :: ms, y.1 = x → y.2.levels ≤ n) (ms := ms.map Prod.fst) (n := json.length + 1) (i := l) (r := r)
          (m := m.1) hwf (by
            intro x hx
            obtain ⟨y, hy, rfl⟩ := List.mem_map.1 hx
            exact hw1 y (by simp [hy])) ?_ h4 (by
              have : (membersText (ms.map Prod.fst)).length ≤ (membersText ((m :: ms).map Prod.fst)).length := by
                rw [List.map_cons, membersText_cons]
                cases ms <;> simp [membersText]; omega
              simp at hlen hel this ⊢
              omega)
        · refine this.congr ?_
          simp only [Doc.levels, List.map_cons, Nat.add_le_add_iff_right]
          rw [memLevels_le]
          constructor
          · intro h d hd
            rw [← List.map_cons (f := fun m : Member × Doc => (m.1.key, m.2))] at hd
            obtain ⟨y, hy, rfl⟩ := List.mem_map.1 hd
            refine h y.1 ?_ y hy rfl
            rcases List.mem_cons.1 hy with rfl | hy
            · exact .inl rfl
            · exact .inr (List.mem_map_of_mem hy)
          · intro h x _ y hy _
            refine h (y.1.key, y.2) ?_
            rw [← List.map_cons (f := fun m : Member × Doc => (m.1.key, m.2))]
            exact List.mem_map.2 ⟨y, hy, rfl⟩
        · intro x hx i w q hat hw hq
          obtain ⟨y, hy, rfl⟩ : ∃ y ∈ m :: ms, y.1 = x := by
            rcases hx with rfl | hx
            · exact ⟨m, by simp, rfl⟩
            · obtain ⟨y, hy, rfl⟩ := List.mem_map.1 hx
              exact ⟨y, by simp [hy], rfl⟩
          refine (ih y hy (n := n) hat hw hq).congr ⟨fun h z hz e => ?_, fun h => h y hy rfl⟩
          have := denotes_fun (hv z hz) (d' := y.2) (e ▸ hv y hy)
          rwa [this]

/-! ### Other texts -/

theorem opens_append (s t : Bytes) : opens (s ++ t) = opens s + opens t := by simp [opens]

theorem opens_cons (c : UInt8) (t : Bytes) : opens (c :: t) = opens t + if c = c! '[' ∨ c = c! '{' then 1 else 0 := by
  simp [opens, List.countP_cons]

/-- A later position leaves no more brackets. -/
theorem At.opens_le {json : Bytes} {i j : Nat} {s r : Bytes} (h : At json i s) (h' : At json j r) (hl : r.length ≤ s.length) :
    opens r ≤ opens s := by
  have h1 := h.len
  have h2 := h'.len
  have : s = (s.take (j - i)) ++ r := by
    rw [← h'.2, ← h.2]
    conv_lhs => rw [← List.take_append_drop (j - i) (json.drop i)]
    rw [List.drop_drop]
    congr 2
    omega
  rw [this, opens_append]
  omega

theorem opens_pWs (s : Bytes) : opens (pWs s) ≤ opens s := by
  obtain ⟨w, _, h, _⟩ := pWs_spec s
  conv_rhs => rw [h, opens_append]
  omega

/-- A run that stays within the limit of the recursion and reads on. -/
def Stays (json : Bytes) (x : Res (Bool × Nat)) (s : Bytes) : Prop :=
  (∃ j, x = .ok (false, j)) ∨ ∃ j r, x = .ok (true, j) ∧ At json j r ∧ r.length < s.length

theorem VRef.stays {json : Bytes} {x : Res (Bool × Nat)} {o : Option Bytes} {s : Bytes} (h : VRef json x o)
    (hl : ∀ r, o = some r → r.length < s.length) : Stays json x s := by
  cases o with
  | none => exact .inl h
  | some r =>
    obtain ⟨j, h1, h2⟩ := h
    exact .inr ⟨j, r, h1, h2, hl r rfl⟩

theorem Stays.weaken {json : Bytes} {x : Res (Bool × Nat)} {s t : Bytes} (h : Stays json x s) (hl : s.length ≤ t.length) : Stays json x t := by
  rcases h with h | ⟨j, r, h1, h2, h3⟩
  · exact .inl h
  · exact .inr ⟨j, r, h1, h2, by omega⟩

theorem arrLoop_stays {json : Bytes} {any : Nat → Res (Bool × Nat)} {L : Nat}
    (ha : ∀ i s, At json i s → opens s ≤ L → Stays json (any i) s) :
    ∀ (n i : Nat) (s : Bytes), At json i s → opens s ≤ L → s.length < n → Stays json (validArrayLoop any json n i) s
  | 0, _, _, _, _, h => by omega
  | n + 1, i, s, h, hL, hn => by
    unfold validArrayLoop
    rcases ha i s h hL with ⟨j, h1⟩ | ⟨j, r, h1, h2, h3⟩
    · rw [h1]; exact .inl ⟨_, rfl⟩
    · rw [h1]
      simp only [ok_bind, Bool.not_true, Bool.false_eq_true, if_false]
      obtain ⟨k, hk, hat⟩ := stripWs_at h2
      have hwl := pWs_length r
      have ho := opens_pWs r
      have ho' := h.opens_le h2 (by omega)
      rw [hk]
      simp only [ok_bind]
      cases hw : pWs r with
      | nil => rw [hw] at hat; rw [if_pos hat.nil]; exact .inl ⟨_, rfl⟩
      | cons c q =>
        rw [hw] at hat hwl ho
        rw [opens_cons] at ho
        simp at hwl
        rw [if_neg hat.ne, hat.idx]
        simp only [ok_bind]
        split
        · exact .inr ⟨_, q, rfl, hat.cons, by omega⟩
        · split
          · exact .inl ⟨_, rfl⟩
          · exact (arrLoop_stays ha n _ q hat.cons (by omega) (by omega)).weaken (by omega)

theorem objLoop_stays {json : Bytes} {any : Nat → Res (Bool × Nat)} {L : Nat}
    (ha : ∀ i s, At json i s → opens s ≤ L → Stays json (any i) s) :
    ∀ (n i : Nat) (c : UInt8) (s : Bytes), At json i (c :: s) → opens (c :: s) ≤ L → (c :: s).length < n →
      Stays json (validObjectLoop any json n i) (c :: s)
  | 0, _, _, _, _, _, h => by omega
  | n + 1, i, c, s, h, hL, hn => by
    unfold validObjectLoop
    rw [h.idx]
    simp only [ok_bind]
    split
    · exact .inl ⟨_, rfl⟩
    have h1 := validString_at h
    cases hs : pStr s with
    | none =>
      rw [hs] at h1
      obtain ⟨j, hj⟩ := h1
      rw [hj]; exact .inl ⟨_, rfl⟩
    | some r =>
      rw [hs] at h1
      obtain ⟨j, hj, h2⟩ := h1
      have hlt := pStr_length hs
      rw [hj]
      simp only [ok_bind, Bool.not_true, Bool.false_eq_true, if_false]
      obtain ⟨k, hk, hat⟩ := stripWs_at h2
      have hwl := pWs_length r
      have ho := opens_pWs r
      have ho' := h.opens_le h2 (by simp; omega)
      rw [hk]
      simp only [ok_bind]
      cases hw : pWs r with
      | nil => rw [hw] at hat; rw [if_pos hat.nil]; exact .inl ⟨_, rfl⟩
      | cons d q =>
        rw [hw] at hat hwl ho
        rw [opens_cons] at ho
        simp at hwl hn
        rw [if_neg hat.ne, hat.idx]
        simp only [ok_bind]
        split
        · exact .inl ⟨_, rfl⟩
        rcases ha (k + 1) q hat.cons (by omega) with ⟨j, h1⟩ | ⟨j, r2, h3, h4, h5⟩
        · rw [h1]; exact .inl ⟨_, rfl⟩
        rw [h3]
        simp only [ok_bind, Bool.not_true, Bool.false_eq_true, if_false]
        have ho2 := hat.cons.opens_le h4 (by omega)
        obtain ⟨l, hl, hat⟩ := stripWs_at h4
        have hwl2 := pWs_length r2
        have ho3 := opens_pWs r2
        rw [hl]
        simp only [ok_bind]
        cases hw : pWs r2 with
        | nil => rw [hw] at hat; rw [if_pos hat.nil]; exact .inl ⟨_, rfl⟩
        | cons e q2 =>
          rw [hw] at hat hwl2 ho3
          rw [opens_cons] at ho3
          simp at hwl2
          rw [if_neg hat.ne, hat.idx]
          simp only [ok_bind]
          split
          · exact .inr ⟨_, q2, rfl, hat.cons, by simp; omega⟩
          split
          · exact .inl ⟨_, rfl⟩
          obtain ⟨l', hl', hat'⟩ := stripWs_at hat.cons
          have hwl3 := pWs_length q2
          have ho4 := opens_pWs q2
          rw [hl']
          simp only [ok_bind]
          cases hw : pWs q2 with
          | nil => rw [hw] at hat'; rw [if_pos hat'.nil]; exact .inl ⟨_, rfl⟩
          | cons f q3 =>
            rw [hw] at hat' hwl3 ho4
            rw [if_neg hat'.ne]
            exact (objLoop_stays ha n _ f q3 hat' (by omega) (by omega)).weaken (by simp at hwl3 ⊢; omega)

/-- No text takes `valid_any` deeper than it has opening brackets. -/
theorem validAny_stays {json : Bytes} : ∀ (d i : Nat) (s : Bytes), At json i s → opens s < d → Stays json (validAny json d i) s
  | 0, _, _, _, h => by omega
  | d + 1, i, s, h, hd => by
    have ih : ∀ i s, At json i s → opens s < d → Stays json (validAny json d i) s := validAny_stays d
    obtain ⟨w, hw, hs, hh⟩ := pWs_spec s
    unfold validAny
    have hl := h.len
    have hlw := congrArg List.length hs
    simp at hlw
    have hloop : validAnyLoop (validAny json d) json (json.length + 1) i =
        validAnyLoop (validAny json d) json (json.length - w.length + 1) (i + w.length) := by
      rw [hs] at h
      rw [← anyLoop_ws hw h]
      congr 1
      omega
    have hat : At json (i + w.length) (pWs s) := by
      rw [hs] at h
      exact h.append
    have hop := opens_pWs s
    have hwl := pWs_length s
    rw [hloop]
    cases hq : pWs s with
    | nil =>
      rw [hq] at hat
      unfold validAnyLoop
      rw [if_neg (by have := hat.nil; omega)]
      exact .inl ⟨_, rfl⟩
    | cons c q =>
      rw [hq] at hat hh hop hwl
      have hlen := hat.len
      simp at hlen hwl
      by_cases c1 : c = c! '['
      · subst c1
        rw [opens_cons, if_pos (.inl rfl)] at hop
        rw [anyLoop_arr hat]
        unfold validArray
        obtain ⟨k, hk, hat2⟩ := stripWs_at hat.cons
        have hwl2 := pWs_length q
        have ho2 := opens_pWs q
        rw [hk]
        simp only [ok_bind]
        cases hw2 : pWs q with
        | nil => rw [hw2] at hat2; rw [if_pos hat2.nil]; exact .inl ⟨_, rfl⟩
        | cons e q2 =>
          rw [hw2] at hat2 hwl2 ho2
          rw [if_neg hat2.ne, hat2.idx]
          simp only [ok_bind]
          simp at hwl2
          split
          · exact .inr ⟨_, q2, rfl, hat2.cons, by omega⟩
          · exact (arrLoop_stays (L := d - 1) (fun i s h1 h2 => ih i s h1 (by omega)) _ _ _ hat2 (by omega) (by simp; omega)).weaken (by simp; omega)
      by_cases c2 : c = c! '{'
      · subst c2
        rw [opens_cons, if_pos (.inr rfl)] at hop
        rw [anyLoop_obj hat]
        unfold validObject
        obtain ⟨k, hk, hat2⟩ := stripWs_at hat.cons
        have hwl2 := pWs_length q
        have ho2 := opens_pWs q
        rw [hk]
        simp only [ok_bind]
        cases hw2 : pWs q with
        | nil => rw [hw2] at hat2; rw [if_pos hat2.nil]; exact .inl ⟨_, rfl⟩
        | cons e q2 =>
          rw [hw2] at hat2 hwl2 ho2
          rw [if_neg hat2.ne, hat2.idx]
          simp only [ok_bind]
          simp at hwl2
          split
          · exact .inr ⟨_, q2, rfl, hat2.cons, by omega⟩
          · exact (objLoop_stays (L := d - 1) (fun i s h1 h2 => ih i s h1 (by omega)) _ _ _ _ hat2 (by omega) (by simp; omega)).weaken (by simp; omega)
      · refine ((vAny_leaf (n := json.length - w.length) hat (hh c (by simp)) c2 c1 0).stays ?_).weaken (s := c :: q) (by simp; omega)
        exact fun r hr => pAny_length hr

/-! ### More room for the recursion changes nothing -/

/-- `y` is `x`, unless `x` hits the limit of the recursion. -/
def Above (x y : Res α) : Prop := x = outOfFuel ∨ y = x

theorem Above.bind {α β : Type} {x y : Res α} {f g : α → Res β} (h : Above x y) (hf : ∀ a, Above (f a) (g a)) : Above (x >>= f) (y >>= g) := by
  rcases h with rfl | rfl
  · exact .inl rfl
  · cases y with
    | error e => exact .inr rfl
    | ok a => exact hf a

theorem Above.refl {α : Type} (x : Res α) : Above x x := .inr rfl

theorem Above.ite {α : Type} {c : Prop} [Decidable c] {x y x' y' : Res α} (h : Above x y) (h' : Above x' y') :
    Above (if c then x else x') (if c then y else y') := by
  split
  · exact h
  · exact h'

theorem arrLoop_above {json : Bytes} {any any' : Nat → Res (Bool × Nat)} (h : ∀ i, Above (any i) (any' i)) :
    ∀ n i, Above (validArrayLoop any json n i) (validArrayLoop any' json n i)
  | 0, _ => .refl _
  | n + 1, i => by
    unfold validArrayLoop
    refine .bind (h i) fun a => .ite (.refl _) (.bind (.refl _) fun k => .ite (.refl _) (.bind (.refl _) fun c => .ite (.refl _) (.ite (.refl _) ?_)))
    exact arrLoop_above h n _

theorem objLoop_above {json : Bytes} {any any' : Nat → Res (Bool × Nat)} (h : ∀ i, Above (any i) (any' i)) :
    ∀ n i, Above (validObjectLoop any json n i) (validObjectLoop any' json n i)
  | 0, _ => .refl _
  | n + 1, i => by
    unfold validObjectLoop
    refine .bind (.refl _) fun c => .ite (.refl _) (.bind (.refl _) fun a => .ite (.refl _) (.bind (.refl _) fun k => .ite (.refl _)
      (.bind (.refl _) fun d => .ite (.refl _) (.bind (h _) fun b => .ite (.refl _) (.bind (.refl _) fun l => .ite (.refl _)
      (.bind (.refl _) fun e => .ite (.refl _) (.ite (.refl _) (.bind (.refl _) fun m => .ite (.refl _) ?_))))))))
    exact objLoop_above h n _

theorem anyLoop_above {json : Bytes} {any any' : Nat → Res (Bool × Nat)} (h : ∀ i, Above (any i) (any' i)) :
    ∀ n i, Above (validAnyLoop any json n i) (validAnyLoop any' json n i)
  | 0, _ => .refl _
  | n + 1, i => by
    unfold validAnyLoop
    refine .ite (.bind (.refl _) fun c => .ite (anyLoop_above h n _) (.ite ?_ (.ite ?_ (.refl _)))) (.refl _)
    · unfold validObject
      exact .bind (.refl _) fun k => .ite (.refl _) (.bind (.refl _) fun d => .ite (.refl _) (objLoop_above h _ _))
    · unfold validArray
      exact .bind (.refl _) fun k => .ite (.refl _) (.bind (.refl _) fun d => .ite (.refl _) (arrLoop_above h _ _))

theorem validAny_above {json : Bytes} : ∀ {d d' : Nat}, d ≤ d' → ∀ i, Above (validAny json d i) (validAny json d' i)
  | 0, _, _, _ => .inl rfl
  | d + 1, 0, h, _ => by omega
  | d + 1, d' + 1, h, i => by
    unfold validAny
    exact anyLoop_above (fun i => validAny_above (by omega) i) _ i

/-! ### `pretty` -/

theorem prettyObjLoop_above {any any' : PrettyFn} {json : Bytes} {opn cls : UInt8} {a : PArgs} {tabs max : Int} {depth : Nat}
    (h : ∀ a tabs max buf i nl, Above (any a tabs max depth buf i nl) (any' a tabs max depth buf i nl)) :
    ∀ n i nl buf pairs m, Above (prettyObjLoop any json opn cls a tabs max depth n i nl buf pairs m)
      (prettyObjLoop any' json opn cls a tabs max depth n i nl buf pairs m)
  | 0, _, _, _, _, _ => .refl _
  | n + 1, i, nl, buf, pairs, m => by
    unfold prettyObjLoop
    refine .ite (.bind (.refl _) fun c => .ite (prettyObjLoop_above h n _ _ _ _ _) (.ite (.refl _) (.ite ?_ (prettyObjLoop_above h n _ _ _ _ _)))) (.refl _)
    refine .bind (.refl _) fun x => .bind (.refl _) fun y => .bind (h _ _ _ _ _ _) fun z => .ite (.refl _) (.ite (.refl _) ?_)
    exact prettyObjLoop_above h n _ _ _ _ _

theorem prettyObj_above {any any' : PrettyFn} {json : Bytes} {depth : Nat}
    (h : depth ≠ MAX_DEPTH → ∀ a tabs max buf i nl, Above (any a tabs max depth buf i nl) (any' a tabs max depth buf i nl)) :
    ∀ k opn cls a tabs max buf i nl, Above (prettyObj any json k opn cls a tabs max depth buf i nl)
      (prettyObj any' json k opn cls a tabs max depth buf i nl)
  | 0, _, _, _, _, _, _, _, _ => .refl _
  | k + 1, opn, cls, a, tabs, max, buf, i, nl => by
    unfold prettyObj
    by_cases hd : depth = MAX_DEPTH
    · rw [if_pos hd, if_pos hd]
      exact .refl _
    · rw [if_neg hd, if_neg hd]
      have hb := fun tabs max n i nl buf pairs m => prettyObjLoop_above (json := json) (opn := opn) (cls := cls) (a := a) (tabs := tabs) (max := max) (h hd) n i nl buf pairs m
      refine .ite (.ite (.ite (.bind (prettyObj_above h k _ _ _ _ _ _ _ _) fun x => .ite (.refl _) (hb _ _ _ _ _ _ _ _)) (hb _ _ _ _ _ _ _ _))
        (.ite (.refl _) (hb _ _ _ _ _ _ _ _))) (hb _ _ _ _ _ _ _ _)

theorem prettyAnyLoop_above {any any' : PrettyFn} {json : Bytes} {a : PArgs} {tabs max : Int} {depth : Nat} {buf : Bytes} {nl : Int}
    (h : depth + 1 ≠ MAX_DEPTH → ∀ a tabs max buf i nl, Above (any a tabs max (depth + 1) buf i nl) (any' a tabs max (depth + 1) buf i nl)) :
    ∀ n i, Above (prettyAnyLoop any json a tabs max depth buf nl n i) (prettyAnyLoop any' json a tabs max depth buf nl n i)
  | 0, _ => .refl _
  | n + 1, i => by
    unfold prettyAnyLoop
    exact .ite (.bind (.refl _) fun c => .ite (prettyAnyLoop_above h n _) (.ite (.refl _) (.ite (.refl _)
      (.ite (prettyObj_above h _ _ _ _ _ _ _ _ _) (.ite (prettyObj_above h _ _ _ _ _ _ _ _ _) (.ite (.refl _) (.ite (.refl _) (.ite (.refl _)
      (prettyAnyLoop_above h n _)))))))))  (.refl _)

theorem prettyAny_above {json : Bytes} : ∀ {d d' : Nat}, d ≤ d' → ∀ a tabs max depth buf i nl,
    Above (prettyAny json d a tabs max depth buf i nl) (prettyAny json d' a tabs max depth buf i nl)
  | 0, _, _, _, _, _, _, _, _, _ => .inl rfl
  | d + 1, 0, h, _, _, _, _, _, _, _ => by omega
  | d + 1, d' + 1, h, a, tabs, max, depth, buf, i, nl => by
    unfold prettyAny
    exact prettyAnyLoop_above (fun _ _ _ _ _ _ _ => prettyAny_above (by omega) _ _ _ _ _ _ _) _ i

/-- Beyond the limit of `pretty` no room is needed. -/
theorem prettyAny_limit {json : Bytes} : ∀ {d d' depth : Nat}, depth < MAX_DEPTH → MAX_DEPTH ≤ d + depth → ∀ a tabs max buf i nl,
    Above (prettyAny json d' a tabs max depth buf i nl) (prettyAny json d a tabs max depth buf i nl)
  | _, 0, _, _, _, _, _, _, _, _, _ => .inl rfl
  | 0, _ + 1, _, h1, h2, _, _, _, _, _, _ => by omega
  | d + 1, d' + 1, depth, h1, h2, a, tabs, max, buf, i, nl => by
    unfold prettyAny
    exact prettyAnyLoop_above (fun hd _ _ _ _ _ _ => prettyAny_limit (by omega) (by omega) _ _ _ _ _ _) _ i

theorem prettyWithin_eq {n : Nat} (json : Bytes) (o : PrettyOptions) (hn : MAX_DEPTH ≤ n) : prettyWithin n json o = prettyOptions json o := by
  obtain ⟨b, hb⟩ := prettyOptions_ok json o
  have : Above (prettyOptions json o) (prettyWithin n json o) := by
    unfold prettyOptions prettyWithin
    exact .bind (prettyAny_limit (by decide) (by omega) _ _ _ _ _ _) fun _ => .refl _
  rcases this with h | h
  · rw [hb] at h
    cases h
  · exact h

/-- Every bracket takes `pretty` one call deeper, up to its limit. -/
theorem prettyAny_brackets {json : Bytes} {a : PArgs} (hw : a.width = 0) : ∀ {d depth i : Nat} {r : Bytes},
    At json i (List.replicate d c! '[' ++ c! '[' :: r) → d + depth < MAX_DEPTH → ∀ tabs max buf nl,
      prettyAny json d a tabs max depth buf i nl = outOfFuel
  | 0, _, _, _, _, _, _, _, _, _ => rfl
  | d + 1, depth, i, r, h, hd, tabs, max, buf, nl => by
    rw [List.replicate_succ, List.cons_append] at h
    have hlen := h.len
    unfold prettyAny
    obtain ⟨m, hm⟩ : ∃ m, json.length = m + 1 := ⟨json.length - 1, by have := h.lt; omega⟩
    rw [hm]
    unfold prettyAnyLoop
    rw [if_pos h.lt, h.idx]
    simp only [ok_bind]
    rw [if_neg (by decide), if_neg (by decide), if_neg (by decide), if_neg (by decide), if_pos trivial]
    unfold prettyObj
    rw [if_neg (show ¬ depth + 1 = MAX_DEPTH by omega), if_neg (show ¬ a.width > 0 by rw [hw]; decide), hm]
    obtain ⟨q, hq⟩ : ∃ q', List.replicate d c! '[' ++ c! '[' :: r = c! '[' :: q' := by
      cases d with
      | zero => exact ⟨_, rfl⟩
      | succ d => exact ⟨_, by rw [List.replicate_succ, List.cons_append]⟩
    have h1 := h.cons
    have h2 := h1
    rw [hq] at h1
    unfold prettyObjLoop
    rw [if_pos h1.lt, h1.idx]
    simp only [ok_bind]
    rw [if_neg (by decide), if_neg (by decide), if_pos (.inl trivial)]
    have hl : ∃ x, prettyLine a nl (prettySep c! '[' a (buf ++ [c! '[']) 0) = .ok x := by
      unfold prettyLine prettySep lastByte
      split
      · rw [if_neg (Nat.lt_irrefl 0), if_neg (by simp)]
        have : At (buf ++ [c! '[']) buf.length [c! '['] := .of_pre _ _
        have e : (buf ++ [c! '[']).length - 1 = buf.length := by simp
        rw [e, this.idx]
        exact ⟨_, rfl⟩
      · exact ⟨_, rfl⟩
    obtain ⟨x, hx⟩ := hl
    rw [hx]
    simp only [ok_bind, prettyKey]
    rw [if_neg (by decide)]
    simp only [ok_bind]
    rw [prettyAny_brackets hw h2 (by omega)]
    rfl

/-! ### `@flatten` -/

theorem elemArrays_le {es : List Doc} {n : Nat} : elemArrays es ≤ n ↔ ∀ d ∈ es, d.arrays ≤ n := by
  induction es with
  | nil => simp [elemArrays]
  | cons d r ih => simp only [elemArrays, Nat.max_le, ih, List.mem_cons, forall_eq_or_imp]

/-- A run that gives a result when `p` holds, and otherwise hits the limit. -/
def Lasts (x : Res α) (p : Prop) : Prop := (p ∧ ∃ a, x = .ok a) ∨ (¬ p ∧ x = outOfFuel)

theorem flat_lasts {json : Bytes} {inner : Bytes → Res Bytes} {n : Nat} {vs : List Bytes} {ds : List Doc} (hd : Aligned Denotes vs ds)
    (hin : ∀ v es, Denotes v (.arr es) → Lasts (inner v) ((Doc.arr es).arrays ≤ n)) : ∀ {vals : List Value}, Aligned (ElemAt json) vals vs →
    ∀ st, Lasts (visit (flatStep true inner) st vals) (∀ d ∈ ds, d.arrays ≤ n) := by
  induction hd with
  | nil =>
    intro vals h st
    cases h
    exact .inl ⟨by simp, _, rfl⟩
  | @cons v d vs ds hv _ ih =>
    intro vals h st
    cases h with
    | @cons x _ xs _ hx hr =>
      obtain ⟨hval, i, q, hi, rfl, hA⟩ := hx
      have hstep : Lasts (flatRaw true inner (leafVal (some i) v)) (d.arrays ≤ n) := by
        unfold flatRaw
        rw [leafVal_kind' hval, denotes_kind hv]
        cases d with
        | leaf t =>
          have : kindOf t ≠ .array := by cases hv; assumption
          simp only [if_neg this]
          exact .inl ⟨by simp [Doc.arrays], _, rfl⟩
        | obj ms => exact .inl ⟨by simp [Doc.arrays], _, rfl⟩
        | arr es =>
          simp only [if_pos, leafVal_json]
          rcases hin v es hv with ⟨h1, o, h2⟩ | ⟨h1, h2⟩
          · exact .inl ⟨h1, _, by rw [h2]; rfl⟩
          · exact .inr ⟨h1, by rw [h2]; rfl⟩
      rcases hstep with ⟨h1, raw, h2⟩ | ⟨h1, h2⟩
      · have e1 := flatStep_push h2 st
        simp only [visit, e1]
        rw [if_pos trivial]
        rcases ih hr (flatPush raw st) with ⟨h3, h4⟩ | ⟨h3, h4⟩
        · exact .inl ⟨by simp only [List.mem_cons, forall_eq_or_imp]; exact ⟨h1, h3⟩, h4⟩
        · exact .inr ⟨fun h => h3 fun d hd => h d (by simp [hd]), h4⟩
      · simp only [visit, flatStep, h2]
        exact .inr ⟨fun h => h1 (h d (by simp)), rfl⟩

theorem flatten_lasts {arg : Bytes} {o : Value} (ho : get arg b!"deep" = .ok o) (hb : o.bool = .ok true) : ∀ (n : Nat) {v doc : Bytes} {es : List Doc},
    Denotes v (.arr es) → Padded v doc → Lasts (modFlattenN get n doc arg) ((Doc.arr es).arrays ≤ n)
  | 0, _, _, _, _, _ => .inr ⟨by simp [Doc.arrays], rfl⟩
  | n + 1, v, doc, es, hv, hp => by
    obtain ⟨vs, h1, h2⟩ := arr_text hv
    obtain ⟨json, vals, _, h3, h4⟩ := flatten_run (n := n) h1 hp ho hb
    rw [h4]
    simp only [Doc.arrays, Nat.add_le_add_iff_right]
    rw [elemArrays_le]
    rcases flat_lasts (n := n) h2 (fun v es h => flatten_lasts (doc := v) ho hb n h ⟨[], [], ws_nil, ws_nil, by simp⟩) h3 ([c! '['], 0) with ⟨h5, st, h6⟩ | ⟨h5, h6⟩
    · exact .inl ⟨h5, _, by rw [h6]; rfl⟩
    · exact .inr ⟨h5, by rw [h6]; rfl⟩

theorem runFold_above {σ : Type} {f g : σ → Value → Value → Res (σ × Bool)} (h : ∀ st k e, Above (f st k e) (g st k e)) :
    ∀ l st, Above (runFold f st l) (runFold g st l)
  | [], _ => .refl _
  | (k, v) :: r, st => by
    unfold runFold
    exact .bind (h st k v) fun x => .ite (runFold_above h r _) (.refl _)

theorem flattenN_above {rec : GetFn} {arg : Bytes} : ∀ {n n' : Nat} {json : Bytes}, n ≤ n' → Above (modFlattenN rec n json arg) (modFlattenN rec n' json arg)
  | 0, _, _, _ => .inl rfl
  | n + 1, 0, _, h => by omega
  | n + 1, n' + 1, json, h => by
    unfold modFlattenN
    rw [parse_eq]
    simp only [ok_bind]
    by_cases hk : (pParse 0 json).kind = .array
    · rw [if_neg (by simpa using hk), if_neg (by simpa using hk)]
      refine .bind (.refl _) fun d => .bind (.refl _) fun deep => .bind ?_ fun _ => .refl _
      by_cases he : (pParse 0 json).exists = true
      · rw [each_run he (.inr hk), each_run he (.inr hk)]
        refine runFold_above (fun st k e => ?_) _ _
        have ih := flattenN_above (rec := rec) (arg := arg) (json := e.json) (Nat.le_of_succ_le_succ h)
        split
        · split
          · exact .bind ih fun _ => .refl _
          · exact .refl _
        · exact .refl _
      · unfold Value.each
        rw [if_pos (by simpa using he), if_pos (by simpa using he)]
        exact .refl _
    · rw [if_pos hk, if_pos hk]
      exact .refl _

end Gjson
