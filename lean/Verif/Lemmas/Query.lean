import Verif.Lemmas.Path
/-
`query_parts` and `next_group`: totality.
-/
namespace Gjson

theorem trimStart_suffix : ∀ s : Bytes, trimStart s <:+ s
  | [] => List.suffix_refl _
  | c :: r => by
    unfold trimStart
    split
    · exact (trimStart_suffix r).trans (List.suffix_cons _ _)
    · exact List.suffix_refl _

theorem trim_infix (s : Bytes) : trim s <:+: s := by
  unfold trim
  have h1 := trimStart_suffix s
  have h2 := trimStart_suffix (trimStart s).reverse
  have h3 : (trimStart (trimStart s).reverse).reverse <+: trimStart s := by
    rw [← List.reverse_suffix]; simpa using h2
  exact h3.isInfix.trans h1.isInfix

theorem sub_infix (b : Bytes) (s e : Nat) : sub b s e <:+: b :=
  (List.take_prefix _ _).isInfix.trans (List.drop_suffix _ _).isInfix

theorem slice_ok {b : Bytes} {s e : Nat} (h1 : s ≤ e) (h2 : e ≤ b.length) : slice b s e = .ok (sub b s e) := by
  unfold slice; rw [if_pos ⟨h1, h2⟩]

theorem idx_ok {b : Bytes} {i : Nat} (h : i < b.length) : ∃ c, idx b i = .ok c := by
  unfold idx; rw [List.getElem?_eq_getElem h]; exact ⟨_, rfl⟩

theorem queryOpAt_ok {query : Bytes} {i : Nat} (c : UInt8) (hi : i < query.length) :
    ∃ o, queryOpAt query i c = .ok o ∧ ∀ s e, o = some (s, e) → s = i ∧ s < e ∧ e ≤ query.length := by
  have h1 : ∃ o, (if i + 1 < query.length then do
      let d ← idx query (i + 1)
      if d = c! '=' ∨ d = c! '%' then .ok (some (i, i + 2)) else .ok (some (i, i + 1))
    else .ok (some (i, i + 1)) : Res (Option (Nat × Nat))) = .ok o ∧
      ∀ s e, o = some (s, e) → s = i ∧ s < e ∧ e ≤ query.length := by
    split
    · rename_i h
      obtain ⟨d, hd⟩ := idx_ok h
      rw [hd]
      simp only [ok_bind]
      split
      · refine ⟨_, rfl, ?_⟩; intro s e hse; simp at hse; omega
      · refine ⟨_, rfl, ?_⟩; intro s e hse; simp at hse; omega
    · refine ⟨_, rfl, ?_⟩; intro s e hse; simp at hse; omega
  have h2 : ∃ o, (if i + 1 < query.length then do
      let d ← idx query (i + 1)
      if d = c! '=' then .ok (some (i, i + 2)) else .ok (some (i, i + 1))
    else .ok (some (i, i + 1)) : Res (Option (Nat × Nat))) = .ok o ∧
      ∀ s e, o = some (s, e) → s = i ∧ s < e ∧ e ≤ query.length := by
    split
    · rename_i h
      obtain ⟨d, hd⟩ := idx_ok h
      rw [hd]
      simp only [ok_bind]
      split
      · refine ⟨_, rfl, ?_⟩; intro s e hse; simp at hse; omega
      · refine ⟨_, rfl, ?_⟩; intro s e hse; simp at hse; omega
    · refine ⟨_, rfl, ?_⟩; intro s e hse; simp at hse; omega
  unfold queryOpAt
  split
  · refine ⟨_, rfl, ?_⟩; intro s e hse; simp at hse; omega
  split
  · exact h1
  split
  · exact h2
  · exact ⟨_, rfl, by simp⟩

theorem queryOpLoop_ok {query : Bytes} : ∀ (n i : Nat) (depth : Int), i ≤ query.length → query.length - i < n →
    ∃ o, queryOpLoop query n i depth = .ok o ∧ ∀ s e, o = some (s, e) → s < e ∧ e ≤ query.length
  | 0, _, _, _, h => by omega
  | n + 1, i, depth, hi, hn => by
    unfold queryOpLoop
    split
    · rename_i h
      obtain ⟨c, hc⟩ := idx_ok h
      rw [hc]
      simp only [ok_bind]
      split
      · split
        · exact ⟨_, rfl, by simp⟩
        · exact queryOpLoop_ok n (i + 2) depth (by omega) (by omega)
      split
      · exact queryOpLoop_ok n (i + 1) _ (by omega) (by omega)
      split
      · exact queryOpLoop_ok n (i + 1) _ (by omega) (by omega)
      split
      · exact queryOpLoop_ok n (i + 1) _ (by omega) (by omega)
      · obtain ⟨o, h1, h2⟩ := queryOpAt_ok c h
        rw [h1]
        simp only [ok_bind]
        cases o with
        | none => exact queryOpLoop_ok n (i + 1) _ (by omega) (by omega)
        | some se => exact ⟨_, rfl, fun s e hse => (h2 s e hse).2⟩
    · exact ⟨_, rfl, by simp⟩

/-- The parts of a query are pieces of the component, shorter than it. -/
structure PartsOk (comp lh rh : Bytes) : Prop where
  left : lh <:+: comp
  right : rh <:+: comp
  len : lh ≠ [] → lh.length < comp.length
  inner : ∃ x y z, comp.drop 2 = x ++ (lh ++ (y ++ (rh ++ z)))

theorem trim_split (s : Bytes) : ∃ x z, s = x ++ (trim s ++ z) := by
  obtain ⟨x, z, h⟩ := trim_infix s
  exact ⟨x, z, by rw [← List.append_assoc]; exact h.symm⟩

theorem queryInner_ok (comp : Bytes) :
    ∃ o, queryInner comp = .ok o ∧ ∀ q, o = some q → q <:+: comp ∧ q.length < comp.length ∧ q <+: comp.drop 2 := by
  unfold queryInner
  split
  · exact ⟨_, rfl, by simp⟩
  rename_i hl
  obtain ⟨c0, h0⟩ := idx_ok (b := comp) (i := 0) (by omega)
  obtain ⟨c1, h1⟩ := idx_ok (b := comp) (i := 1) (by omega)
  obtain ⟨c2, h2⟩ := idx_ok (b := comp) (i := comp.length - 1) (by omega)
  obtain ⟨c3, h3⟩ := idx_ok (b := comp) (i := comp.length - 2) (by omega)
  rw [h0, h1, h2, h3]
  simp only [ok_bind]
  split
  · exact ⟨_, rfl, by simp⟩
  rename_i g0
  split
  · exact ⟨_, rfl, by simp⟩
  rename_i g1
  simp only [ne_eq, Decidable.not_not] at g0 g1
  -- two characters are not enough
  have hs : ∀ e, 2 ≤ e → e < comp.length → ∃ q, slice comp 2 e = .ok q ∧ q <:+: comp ∧ q.length < comp.length ∧ q <+: comp.drop 2 := by
    intro e he he2
    refine ⟨_, slice_ok (by omega) (by omega), sub_infix _ _ _, ?_, List.take_prefix _ _⟩
    unfold sub; simp; omega
  by_cases hlen : 4 ≤ comp.length
  · split
    · split
      · exact ⟨_, rfl, by simp⟩
      · obtain ⟨q, hq, hq2⟩ := hs (comp.length - 2) (by omega) (by omega)
        rw [hq]
        exact ⟨_, rfl, fun q' h => by simp at h; subst h; exact hq2⟩
    · split
      · exact ⟨_, rfl, by simp⟩
      · obtain ⟨q, hq, hq2⟩ := hs (comp.length - 1) (by omega) (by omega)
        rw [hq]
        exact ⟨_, rfl, fun q' h => by simp at h; subst h; exact hq2⟩
  · split
    · rename_i g2
      by_cases h3' : comp.length = 3
      · rw [h3'] at h3
        rw [h1] at h3
        simp at h3
        rw [if_pos (by rw [← h3, g1]; decide)]
        exact ⟨_, rfl, by simp⟩
      · have : comp.length = 2 := by omega
        rw [this] at h2
        rw [h1] at h2
        simp at h2
        rw [← h2, g1] at g2; exact absurd g2 (by decide)
    · split
      · exact ⟨_, rfl, by simp⟩
      · rename_i g2
        by_cases h3' : comp.length = 3
        · obtain ⟨q, hq, hq2⟩ := hs (comp.length - 1) (by omega) (by omega)
          rw [hq]
          exact ⟨_, rfl, fun q' h => by simp at h; subst h; exact hq2⟩
        · have : comp.length = 2 := by omega
          rw [this] at h2
          rw [h1] at h2
          simp at h2
          simp only [ne_eq, Decidable.not_not] at g2
          rw [← h2, g1] at g2; exact absurd g2 (by decide)

theorem queryParts_ok (p : Path) : ∃ lh op rh, p.queryParts = .ok (lh, op, rh) ∧ PartsOk p.comp lh rh := by
  unfold Path.queryParts
  obtain ⟨o, h1, h2⟩ := queryInner_ok p.comp
  rw [h1]
  simp only [ok_bind]
  cases o with
  | none => exact ⟨_, _, _, rfl, List.nil_infix, List.nil_infix, fun h => absurd rfl h, [], [], _, rfl⟩
  | some q =>
    obtain ⟨g1, g2, z0, g3⟩ := h2 q rfl
    obtain ⟨x1, z1, g4⟩ := trim_split q
    have hq := trim_infix q
    have hql := hq.length_le
    simp only
    obtain ⟨o, h3, h4⟩ := queryOpLoop_ok (query := trim q) ((trim q).length + 1) 0 0 (by omega) (by omega)
    rw [h3]
    simp only [ok_bind]
    cases o with
    | none => exact ⟨_, _, _, rfl, hq.trans g1, List.nil_infix, fun _ => by omega, x1, z1 ++ z0, [],
        by rw [← g3]; conv => { lhs; rw [g4] }; simp⟩
    | some se =>
      obtain ⟨s, e⟩ := se
      obtain ⟨h5, h6⟩ := h4 s e rfl
      simp only
      rw [slice_ok (by omega) (by omega), slice_ok (by omega) (by omega), (At.mk' h6).sliceFrom]
      simp only [ok_bind]
      have i1 : trim (sub (trim q) 0 s) <:+: trim q := (trim_infix _).trans (sub_infix _ _ _)
      have i2 : trim ((trim q).drop e) <:+: trim q := (trim_infix _).trans (List.drop_suffix _ _).isInfix
      have hp : PartsOk p.comp (trim (sub (trim q) 0 s)) (trim ((trim q).drop e)) :=
        ⟨i1.trans (hq.trans g1), i2.trans (hq.trans g1), fun _ => by have := i1.length_le; omega, by
          obtain ⟨x2, z2, g5⟩ := trim_split (sub (trim q) 0 s)
          obtain ⟨x3, z3, g6⟩ := trim_split ((trim q).drop e)
          have g7 : trim q = sub (trim q) 0 s ++ (sub (trim q) s e ++ (trim q).drop e) := by
            unfold sub
            rw [List.drop_zero, Nat.sub_zero]
            conv => { lhs; rw [← List.take_append_drop s (trim q), ← List.take_append_drop (e - s) ((trim q).drop s)] }
            rw [List.drop_drop, Nat.add_sub_cancel' (Nat.le_of_lt h5)]
          refine ⟨x1 ++ x2, z2 ++ (sub (trim q) s e ++ x3), z3 ++ (z1 ++ z0), ?_⟩
          rw [← g3]
          conv => { lhs; rw [g4, g7, g5, g6] }
          simp only [List.append_assoc]⟩
      split
      · rename_i ho
        rw [ho]
        exact ⟨_, _, _, rfl, hp⟩
      · exact ⟨_, _, _, rfl, hp⟩

/-- `query_parts` as a total function. -/
def pParts (p : Path) : Bytes × Bytes × Bytes := match p.queryParts with | .ok x => x | .error _ => ([], [], [])

theorem queryParts_eq (p : Path) : p.queryParts = .ok (pParts p) := by
  obtain ⟨_, _, _, h, _⟩ := queryParts_ok p
  unfold pParts; rw [h]

theorem pParts_ok (p : Path) : PartsOk p.comp (pParts p).1 (pParts p).2.2 := by
  obtain ⟨_, _, _, h, h2⟩ := queryParts_ok p
  unfold pParts; rw [h]; exact h2

/-! ### next_group -/

/-- What `next_group` guarantees: the group is a prefix of the remaining text, and
what remains is a suffix. -/
structure GroupOk (extra : Bytes) (group : Bytes) (rem : Path) : Prop where
  pre : group <+: extra
  sep : rem.sep ≠ c! '.'
  rest : rem.extra <:+ extra
  lt : rem.sep ≠ 0 → rem.extra.length < extra.length

theorem nextGroupLoop_ok {extra0 : Bytes} : ∀ (n len : Nat) (rem : Path) (pre extra : Bytes),
    extra0 = pre ++ extra → PathOk extra rem → len = pre.length + rem.comp.length → extra.length < n →
    ∃ len' rem', nextGroupLoop n len rem = .ok (len', rem') ∧ len' ≤ extra0.length ∧
      rem'.sep ≠ c! '.' ∧ rem'.extra <:+ extra0 ∧ (rem'.sep ≠ 0 → rem'.extra.length < extra0.length)
  | 0, _, _, _, _, _, _, _, h => by omega
  | n + 1, len, rem, pre, extra, he, hok, hlen, hn => by
    unfold nextGroupLoop
    split
    · rename_i hs
      have hs0 : rem.sep ≠ 0 := by rw [hs]; decide
      rw [pathNext_eq]
      simp only [ok_bind]
      have h1 := (hok.sep hs0).2
      refine nextGroupLoop_ok n _ _ (pre ++ (rem.comp ++ [rem.sep])) rem.extra ?_ (pNext_ok _) ?_ ?_
      · rw [he, h1]; simp
      · simp; omega
      · have := hok.lt hs0; omega
    · rename_i hs
      have h1 := hok.comp.length_le
      have h2 := congrArg List.length he
      simp at h2
      refine ⟨len, rem, rfl, by omega, hs, ?_, fun h => ?_⟩
      · rw [he]; exact hok.rest.trans (List.suffix_append _ _)
      · have := hok.lt h; omega

theorem nextGroup_ok (p : Path) (h : p.sep = c! '.') :
    ∃ g r, p.nextGroup = .ok (g, r) ∧ GroupOk p.extra g r := by
  unfold Path.nextGroup
  rw [if_neg (by simp [h]), pathNext_eq]
  simp only [ok_bind]
  obtain ⟨len, rem, h1, h2, h3, h4, h5⟩ := nextGroupLoop_ok (extra0 := p.extra) (p.extra.length + 1)
    (pNext p.extra).comp.length (pNext p.extra) [] p.extra rfl (pNext_ok _) (by simp) (by omega)
  rw [h1]
  simp only [ok_bind]
  rw [slice_ok (by omega) h2]
  refine ⟨_, _, rfl, ?_, h3, h4, h5⟩
  unfold sub; exact List.take_prefix _ _

/-- `next_group` as a total function. -/
def pGroup (p : Path) : Bytes × Path := match p.nextGroup with | .ok x => x | .error _ => ([], p)

theorem nextGroup_eq (p : Path) : p.nextGroup = .ok (pGroup p) := by
  unfold pGroup
  by_cases h : p.sep = c! '.'
  · obtain ⟨_, _, h, _⟩ := nextGroup_ok p h
    rw [h]
  · unfold Path.nextGroup; rw [if_pos h]

theorem pGroup_ok (p : Path) (h : p.sep = c! '.') : GroupOk p.extra (pGroup p).1 (pGroup p).2 := by
  obtain ⟨_, _, h, h2⟩ := nextGroup_ok p h
  unfold pGroup; rw [h]; exact h2

theorem pGroup_no (p : Path) (h : p.sep ≠ c! '.') : pGroup p = ([], p) := by
  unfold pGroup Path.nextGroup; rw [if_pos h]

end Gjson
