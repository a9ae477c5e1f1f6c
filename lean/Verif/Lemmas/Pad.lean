import Verif.Lemmas.Piece
/-
A path of ordinary components finds the same in a value, whatever follows it.
-/
namespace Gjson
open Spec

/-- What may follow a value inside a document: blanks, then a comma, a closing
bracket or the end. -/
def Stop (q : Bytes) : Prop := ∃ w r, Ws w ∧ q = w ++ r ∧ ∀ c ∈ r.head?, c = c! ',' ∨ c = c! ']' ∨ c = c! '}'

theorem Stop.follow {q : Bytes} (h : Stop q) : Follow q := by
  obtain ⟨w, r, hw, rfl, hr⟩ := h
  exact Follow.ws hw fun c hc => .inr (hr c hc)

theorem Stop.ws {w q : Bytes} (hw : Ws w) (h : Stop q) : Stop (w ++ q) := by
  obtain ⟨w', r, hw', rfl, hr⟩ := h
  refine ⟨w ++ w', r, ?_, by simp, hr⟩
  intro c hc
  rcases List.mem_append.1 hc with h | h
  · exact hw c h
  · exact hw' c h

theorem Stop.cons {c : UInt8} {r : Bytes} (h : c = c! ',' ∨ c = c! ']' ∨ c = c! '}') : Stop (c :: r) :=
  ⟨[], c :: r, Ws.nil, rfl, by simpa using h⟩

theorem Stop.ws' {w : Bytes} (hw : Ws w) : Stop w := ⟨w, [], hw, by simp, by simp⟩

/-- The same value (up to its position) and the same path. -/
def SameX (x y : Value × Path) : Prop := SameValue x.1 y.1 ∧ x.2 = y.2

theorem sameX_refl (x : Value × Path) : SameX x x := ⟨SameValue.refl _, rfl⟩

section
variable {d1 d2 : Bytes → Res (Value × Path)} {L1 L2 : Nat} {p : Path}

theorem gObjLoop_skips {t : Bytes} (h : ∀ c ∈ t, c ≠ c! '"' ∧ c ≠ c! '}') (d : Bytes → Res (Value × Path)) (L : Nat) (q : Bytes) :
    gObjLoop d L p (t ++ q) = gObjLoop d L p q := by
  induction t with
  | nil => rfl
  | cons c t ih =>
    rw [List.cons_append, gObjLoop_skip _ _ _ _ (h c (by simp)).2 (h c (by simp)).1, ih fun x hx => h x (by simp [hx])]

/-- A string not followed by a colon ends the search. -/
theorem gObjLoop_string (d : Bytes → Res (Value × Path)) (L : Nat) {t q : Bytes} (h : StrLit t) (hq : Stop q) :
    gObjLoop d L p (t ++ q) = .ok (Value.default, p) := by
  obtain ⟨b, hb, rfl⟩ := h
  have e : c! '"' :: (b ++ [c! '"']) ++ q = c! '"' :: (b ++ c! '"' :: q) := by simp
  rw [e]
  have h1 := qStr_body (q := q) hb
  obtain ⟨w, r, hw, rfl, hr⟩ := hq
  cases r with
  | nil =>
    have h2 : pSkipColon (w ++ []) = [] := by rw [pSkipColon_ws hw]; rfl
    rw [gObjLoop_noval _ _ _ h1 h2]
  | cons c r =>
    have hc := hr c (by simp)
    have h2 : pSkipColon (w ++ c :: r) = c :: r := by
      rw [pSkipColon_ws hw, pSkipColon, if_neg (by rcases hc with rfl | rfl | rfl <;> decide)]
    have h3 : leafTok (c :: r) = (none, []) := by
      rcases hc with rfl | rfl | rfl <;> (simp [leafTok]; decide)
    rw [gObjLoop_key _ _ _ h1 h2, h3]
    have hnc : ¬ (c = c! '{' ∨ c = c! '[') := by rcases hc with rfl | rfl | rfl <;> decide
    simp only [gObjLoop_nil, tokVal]
    split
    · rw [if_neg (fun h => hnc h.2), if_neg (by decide)]
    · rfl

theorem num_skips {t : Bytes} (h : NumLit t) : ∀ c ∈ t, c ≠ c! '"' ∧ c ≠ c! '}' := by
  intro c hc
  have := numLit_numCh h c hc
  unfold NumCh at this
  grind

/-- The search through members. -/
theorem members_rel {ms : List Member} {q1 q2 : Bytes} (hw : ∀ m ∈ ms, m.Wf) (hv : ∀ m ∈ ms, IsValue m.val)
    (hd : ∀ v, IsValue v → IsCont v → ∀ q1 q2, Stop q1 → Stop q2 → p.dives = true → RelRes SameX (d1 (v ++ q1)) (d2 (v ++ q2)))
    (ih : ∀ m ∈ ms, ∀ q1 q2, Stop q1 → Stop q2 → RelRes SameX (gObjLoop d1 L1 p q1) (gObjLoop d2 L2 p q2) →
      RelRes SameX (gObjLoop d1 L1 p (m.val ++ q1)) (gObjLoop d2 L2 p (m.val ++ q2))) :
    RelRes SameX (gObjLoop d1 L1 p (membersText ms ++ c! '}' :: q1)) (gObjLoop d2 L2 p (membersText ms ++ c! '}' :: q2)) := by
  induction ms with
  | nil =>
    simp only [membersText, List.nil_append]
    rw [gObjLoop_close, gObjLoop_close]; exact .ok (sameX_refl _)
  | cons m ms ihm =>
    have ihm' := ihm (fun x hx => hw x (List.mem_cons_of_mem _ hx)) (fun x hx => hv x (List.mem_cons_of_mem _ hx))
      (fun x hx => ih x (List.mem_cons_of_mem _ hx))
    have hw1 := hw m (by simp)
    have hv1 := hv m (by simp)
    obtain ⟨t, ht⟩ : ∃ t : Bytes → Bytes, ∀ q, Stop (t q) ∧ membersText (m :: ms) ++ c! '}' :: q = m.text ++ t q ∧
        ∀ d L, gObjLoop d L p (t q) = gObjLoop d L p (membersText ms ++ c! '}' :: q) := by
      cases ms with
      | nil => exact ⟨fun q => c! '}' :: q, fun q => ⟨.cons (by simp), rfl, fun _ _ => rfl⟩⟩
      | cons m' ms =>
        exact ⟨fun q => c! ',' :: (membersText (m' :: ms) ++ c! '}' :: q), fun q => ⟨.cons (by simp), by simp [membersText],
          fun _ _ => gObjLoop_skip _ _ _ _ (by decide) (by decide)⟩⟩
    rw [(ht q1).2.1, (ht q2).2.1]
    obtain ⟨s, hs, _⟩ := keyIs_total hw1.2.1
    obtain ⟨i1, g1⟩ := gObjLoop_member d1 L1 p hw1 hv1 (ht q1).1.follow hs
    obtain ⟨i2, g2⟩ := gObjLoop_member d2 L2 p hw1 hv1 (ht q2).1.follow hs
    rw [g1, g2]
    have hrest : RelRes SameX (gObjLoop d1 L1 p (t q1)) (gObjLoop d2 L2 p (t q2)) := by
      rw [(ht q1).2.2, (ht q2).2.2]; exact ihm'
    split
    · split
      · rename_i hdv
        refine (hd _ hv1 hdv.2 (m.post ++ t q1) (m.post ++ t q2) ((ht q1).1.ws hw1.2.2.2.2)
          ((ht q2).1.ws hw1.2.2.2.2) hdv.1).bind ?_
        rintro ⟨x1, y1⟩ ⟨x2, y2⟩ hxy
        have he := hxy.1.exists
        simp only at he ⊢
        rw [he]
        split
        · exact .ok hxy
        · refine ih m (by simp) (m.post ++ t q1) (m.post ++ t q2) ((ht q1).1.ws hw1.2.2.2.2) ((ht q2).1.ws hw1.2.2.2.2) ?_
          rw [gObjLoop_ws _ _ _ hw1.2.2.2.2, gObjLoop_ws _ _ _ hw1.2.2.2.2]
          exact hrest
      · exact .ok ⟨sameValue_leaf _ _ _, rfl⟩
    · exact hrest

/-- The search through elements, met while looking for keys. -/
theorem elems_rel {es : List Elem} {q1 q2 : Bytes} (hw : ∀ e ∈ es, e.Wf)
    (ih : ∀ e ∈ es, ∀ q1 q2, Stop q1 → Stop q2 → RelRes SameX (gObjLoop d1 L1 p q1) (gObjLoop d2 L2 p q2) →
      RelRes SameX (gObjLoop d1 L1 p (e.val ++ q1)) (gObjLoop d2 L2 p (e.val ++ q2)))
    (hq : RelRes SameX (gObjLoop d1 L1 p q1) (gObjLoop d2 L2 p q2)) :
    RelRes SameX (gObjLoop d1 L1 p (elemsText es ++ c! ']' :: q1)) (gObjLoop d2 L2 p (elemsText es ++ c! ']' :: q2)) := by
  induction es with
  | nil =>
    simp only [elemsText, List.nil_append]
    rw [gObjLoop_skip _ _ _ _ (by decide) (by decide), gObjLoop_skip _ _ _ _ (by decide) (by decide)]
    exact hq
  | cons e es ihm =>
    have ihm' := ihm (fun x hx => hw x (List.mem_cons_of_mem _ hx)) (fun x hx => ih x (List.mem_cons_of_mem _ hx))
    have hw1 := hw e (by simp)
    obtain ⟨t, ht⟩ : ∃ t : Bytes → Bytes, ∀ q, Stop (t q) ∧ elemsText (e :: es) ++ c! ']' :: q = e.text ++ t q ∧
        ∀ d L, gObjLoop d L p (t q) = gObjLoop d L p (elemsText es ++ c! ']' :: q) := by
      cases es with
      | nil => exact ⟨fun q => c! ']' :: q, fun q => ⟨.cons (by simp), rfl, fun _ _ => rfl⟩⟩
      | cons m' ms =>
        exact ⟨fun q => c! ',' :: (elemsText (m' :: ms) ++ c! ']' :: q), fun q => ⟨.cons (by simp), by simp [elemsText],
          fun _ _ => gObjLoop_skip _ _ _ _ (by decide) (by decide)⟩⟩
    rw [(ht q1).2.1, (ht q2).2.1]
    have hrest : RelRes SameX (gObjLoop d1 L1 p (t q1)) (gObjLoop d2 L2 p (t q2)) := by
      rw [(ht q1).2.2, (ht q2).2.2]; exact ihm'
    unfold Elem.text
    simp only [List.append_assoc]
    rw [gObjLoop_ws _ _ _ hw1.1, gObjLoop_ws _ _ _ hw1.1]
    refine ih e (by simp) _ _ ((ht q1).1.ws hw1.2) ((ht q2).1.ws hw1.2) ?_
    rw [gObjLoop_ws _ _ _ hw1.2, gObjLoop_ws _ _ _ hw1.2]
    exact hrest

/-- Looking for keys inside a value. -/
theorem inside_rel
    (hd : ∀ v, IsValue v → IsCont v → ∀ q1 q2, Stop q1 → Stop q2 → p.dives = true → RelRes SameX (d1 (v ++ q1)) (d2 (v ++ q2)))
    {v : Bytes} (hv : IsValue v) : ∀ q1 q2, Stop q1 → Stop q2 → RelRes SameX (gObjLoop d1 L1 p q1) (gObjLoop d2 L2 p q2) →
      RelRes SameX (gObjLoop d1 L1 p (v ++ q1)) (gObjLoop d2 L2 p (v ++ q2)) := by
  induction hv with
  | null => intro q1 q2 _ _ h; rw [gObjLoop_skips (by decide), gObjLoop_skips (by decide)]; exact h
  | «true» => intro q1 q2 _ _ h; rw [gObjLoop_skips (by decide), gObjLoop_skips (by decide)]; exact h
  | «false» => intro q1 q2 _ _ h; rw [gObjLoop_skips (by decide), gObjLoop_skips (by decide)]; exact h
  | str ht =>
    intro q1 q2 h1 h2 _
    rw [gObjLoop_string _ _ ht h1, gObjLoop_string _ _ ht h2]; exact .ok (sameX_refl _)
  | num ht => intro q1 q2 _ _ h; rw [gObjLoop_skips (num_skips ht), gObjLoop_skips (num_skips ht)]; exact h
  | @arrEmpty w hw =>
    intro q1 q2 _ _ h
    have := elems_rel (p := p) (d1 := d1) (d2 := d2) (L1 := L1) (L2 := L2) (es := []) (by simp) (by simp) h
    simp only [elemsText, List.nil_append] at this
    have e : ∀ q, c! '[' :: (w ++ [c! ']']) ++ q = c! '[' :: (w ++ c! ']' :: q) := by simp
    rw [e, e, gObjLoop_skip _ _ _ _ (by decide) (by decide), gObjLoop_skip _ _ _ _ (by decide) (by decide),
      gObjLoop_ws _ _ _ hw, gObjLoop_ws _ _ _ hw]
    exact this
  | @arr es hne hw hv ih =>
    intro q1 q2 _ _ h
    have := elems_rel (p := p) (d1 := d1) (d2 := d2) (L1 := L1) (L2 := L2) hw ih h
    have e : ∀ q, c! '[' :: (elemsText es ++ [c! ']']) ++ q = c! '[' :: (elemsText es ++ c! ']' :: q) := by simp
    rw [e, e, gObjLoop_skip _ _ _ _ (by decide) (by decide), gObjLoop_skip _ _ _ _ (by decide) (by decide)]
    exact this
  | @objEmpty w hw =>
    intro q1 q2 _ _ h
    have e : ∀ q, c! '{' :: (w ++ [c! '}']) ++ q = c! '{' :: (w ++ c! '}' :: q) := by simp
    rw [e, e, gObjLoop_skip _ _ _ _ (by decide) (by decide), gObjLoop_skip _ _ _ _ (by decide) (by decide),
      gObjLoop_ws _ _ _ hw, gObjLoop_ws _ _ _ hw, gObjLoop_close, gObjLoop_close]
    exact .ok (sameX_refl _)
  | @obj ms hne hw hv ih =>
    intro q1 q2 _ _ h
    have := members_rel (p := p) (d1 := d1) (d2 := d2) (L1 := L1) (L2 := L2) (q1 := q1) (q2 := q2) hw hv hd ih
    have e : ∀ q, c! '{' :: (membersText ms ++ [c! '}']) ++ q = c! '{' :: (membersText ms ++ c! '}' :: q) := by simp
    rw [e, e, gObjLoop_skip _ _ _ _ (by decide) (by decide), gObjLoop_skip _ _ _ _ (by decide) (by decide)]
    exact this

end

theorem sameAsText_same {a b : Value} {t : Bytes} (ha : SameAsText a t) (hb : SameAsText b t) : SameValue a b := by
  obtain ⟨_, _, u, h1, h2⟩ := ha
  obtain ⟨_, _, u', h3, h4⟩ := hb
  rw [h1] at h3
  cases h3
  exact h2.trans h4.symm

theorem aligned_getD {as bs : List Value} {vs : List Bytes} (ha : Aligned SameAsText as vs) (hb : Aligned SameAsText bs vs)
    (n : Nat) : SameValue (as.getD n Value.default) (bs.getD n Value.default) := by
  rw [List.getD_eq_getElem?_getD, List.getD_eq_getElem?_getD]
  cases hv : vs[n]? with
  | none =>
    have h1 := aligned_length ha
    have h2 := aligned_length hb
    rw [List.getElem?_eq_none_iff] at hv
    rw [List.getElem?_eq_none (by omega), List.getElem?_eq_none (by omega)]
    exact SameValue.refl _
  | some v =>
    obtain ⟨a, h1, h2⟩ := aligned_get ha hv
    obtain ⟨b, h3, h4⟩ := aligned_get hb hv
    rw [h1, h3]
    exact sameAsText_same h2 h4

/-- What is found in a container does not depend on its place. -/
theorem gCont_place {ks : List Bytes} : OrdComps ks → ks ≠ [] → ∀ {v : Bytes}, IsValue v → IsCont v →
    ∀ L1 L2 q1 q2, Stop q1 → Stop q2 →
      RelRes SameX (gCont get L1 (pNext (dotPath ks)) (v ++ q1)) (gCont get L2 (pNext (dotPath ks)) (v ++ q2)) := by
  induction ks with
  | nil => intro _ h; exact absurd rfl h
  | cons k ks ih =>
    intro ho _ v hv hc L1 L2 q1 q2 h1 h2
    have hk := ho k (by simp)
    have hto : OrdComps ks := fun x hx => ho x (List.mem_cons_of_mem _ hx)
    rcases isCont_cases hv hc with ⟨kvs, hobj⟩ | ⟨vs, harr⟩
    · obtain ⟨w, ms, a1, a2, a3, a4, _⟩ : ∃ w ms, Ws w ∧ (∀ q, v ++ q = c! '{' :: (w ++ (membersText ms ++ c! '}' :: q))) ∧
          (∀ m ∈ ms, m.Wf) ∧ (∀ m ∈ ms, IsValue m.val) ∧ ms.map (fun m => (m.key, m.val)) = kvs := by
        rcases hobj with ⟨w, hw, rfl, rfl⟩ | ⟨ms, hne, hwf, hmv, rfl, rfl⟩
        · exact ⟨w, [], hw, by simp [membersText], by simp, by simp, rfl⟩
        · exact ⟨[], ms, Ws.nil, by simp, hwf, hmv, rfl⟩
      rw [a2, a2]
      unfold gCont
      rw [if_pos (by simp), if_pos (by simp), gObj_cons, gObj_cons, gObjLoop_ws _ _ _ a1, gObjLoop_ws _ _ _ a1]
      have hd : ∀ v, IsValue v → IsCont v → ∀ q1 q2, Stop q1 → Stop q2 → (pNext (dotPath (k :: ks))).dives = true →
          RelRes SameX (if (pNext (dotPath (k :: ks))).dives then gCont get L1 (pNext (pNext (dotPath (k :: ks))).extra) (v ++ q1)
              else .ok (Value.default, pNext (dotPath (k :: ks))))
            (if (pNext (dotPath (k :: ks))).dives then gCont get L2 (pNext (pNext (dotPath (k :: ks))).extra) (v ++ q2)
              else .ok (Value.default, pNext (dotPath (k :: ks)))) := by
        intro v hv hc q1 q2 h1 h2 hdv
        rw [if_pos hdv, if_pos hdv]
        obtain ⟨e, p, x1, x2⟩ := ord_next (ks := ks) [] hk
        have hks : ks ≠ [] := by
          intro hks
          rw [(x1 hks).1] at hdv
          unfold Path.dives at hdv; simp at hdv
        rw [(x2 hks).1]
        exact ih hto hks hv hc L1 L2 q1 q2 h1 h2
      exact members_rel a3 a4 hd fun m hm => inside_rel hd (a4 m hm)
    · rw [gCont_arr get L1 _ harr, gCont_arr get L2 _ harr]
      have al1 := array_toks harr q1 (L1 - (v ++ q1).length)
      have al2 := array_toks harr q2 (L2 - (v ++ q2).length)
      obtain ⟨e, p, x1, x2⟩ := ord_next (ks := ks) [] hk
      obtain ⟨s, r, hn⟩ : ∃ s r, pNext (dotPath (k :: ks)) = ⟨k, e, p, s, 0, r⟩ := by
        by_cases hks : ks = []
        · exact ⟨_, _, (x1 hks).1⟩
        · exact ⟨_, _, (x2 hks).1⟩
      rw [hn, gArrVals_ord _ hk.2.1, gArrVals_ord _ hk.2.1]
      refine .ok ⟨?_, rfl⟩
      simp only
      split
      · exact SameValue.refl _
      · exact aligned_getD al1 al2 _

theorem finish_same {x y : Value × Path} (hx : OneText x.1) (hy : OneText y.1) (h : SameX x y) : SameRes (finish x) (finish y) := by
  unfold finish
  rw [h.2]
  split
  · exact .ok h.1
  · exact getIn_congr_same hx hy h.1 _

/-- Blanks around a value do not matter. -/
theorem get_padded {ks : List Bytes} (ho : OrdComps ks) (hne : ks ≠ []) {v d1 d2 : Bytes} (hv : IsValue v)
    (h1 : Padded v d1) (h2 : Padded v d2) : SameRes (get d1 (dotPath ks)) (get d2 (dotPath ks)) := by
  obtain ⟨k, ks', rfl⟩ : ∃ k ks', ks = k :: ks' := by
    cases ks with
    | nil => exact absurd rfl hne
    | cons a b => exact ⟨a, b, rfl⟩
  rw [(get_dotOrd (ho k (by simp)) d1 []).1, (get_dotOrd (ho k (by simp)) d2 []).1]
  obtain ⟨a1, b1, u1, u2, rfl⟩ := h1
  obtain ⟨a2, b2, w1, w2, rfl⟩ := h2
  rw [gStart_ws _ _ _ u1, gStart_ws _ _ _ w1]
  generalize (a1 ++ (v ++ b1)).length = L1
  generalize (a2 ++ (v ++ b2)).length = L2
  by_cases hc : IsCont v
  · have hr := gCont_place ho hne hv hc L1 L2 b1 b2 (.ws' u2) (.ws' w2)
    rw [← gStart_cont _ _ _ hc, ← gStart_cont _ _ _ hc] at hr
    revert hr
    generalize hx : gStart get L1 (pNext (dotPath (k :: ks'))) (v ++ b1) = X
    generalize hy : gStart get L2 (pNext (dotPath (k :: ks'))) (v ++ b2) = Y
    intro hr
    cases hr with
    | error e => exact .error e
    | ok h => exact finish_same (gStart_prov hx).oneText (gStart_prov hy).oneText h
  · rw [gStart_noCont _ _ _ (noCont_scalar hv hc b1), gStart_noCont _ _ _ (noCont_scalar hv hc b2)]
    exact .refl _

end Gjson
