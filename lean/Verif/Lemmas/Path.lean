import Verif.Lemmas.Leaf
/-
`path_next`: totality, what a component is, and the components without special
characters.
-/
namespace Gjson

/-- Path separators. -/
def IsSep (c : UInt8) : Prop := c = c! '.' ∨ c = c! '|'
instance (c : UInt8) : Decidable (IsSep c) := by unfold IsSep; infer_instance

/-- What `path_next` guarantees about its result. -/
structure PathOk (extra : Bytes) (p : Path) : Prop where
  comp : p.comp <+: extra
  sep : p.sep ≠ 0 → IsSep p.sep ∧ extra = p.comp ++ p.sep :: p.extra
  rest : p.extra <:+ extra
  marg : p.marg ≠ 0 → p.marg < p.comp.length
  modi : p.isModifier = true → p.marg = 0 ∨ 1 ≤ p.marg
  colon : p.marg ≠ 0 → p.comp[p.marg]? = some c! ':'

theorem PathOk.empty (extra : Bytes) : PathOk extra Path.empty :=
  ⟨List.nil_prefix, fun h => absurd rfl h, List.nil_suffix, fun h => absurd rfl h, fun h => by simp [Path.isModifier, Path.empty] at h,
    fun h => absurd rfl h⟩

/-- The result of the loop of `path_next` started at index `i`. -/
structure LoopOk (extra : Bytes) (i : Nat) (x : Nat × UInt8 × Bool × Bool × Nat) : Prop where
  le : i ≤ x.1 ∧ x.1 ≤ extra.length
  sep : x.2.1 ≠ 0 → IsSep x.2.1 ∧ 1 ≤ x.1 ∧ At extra (x.1 - 1) (x.2.1 :: extra.drop x.1)
  marg : x.2.2.2.2 ≠ 0 → i ≤ x.2.2.2.2 ∧ (x.2.1 ≠ 0 → x.2.2.2.2 < x.1 - 1) ∧ x.2.2.2.2 < extra.length ∧
    extra[x.2.2.2.2]? = some c! ':'

theorem pathArgLoop_ok {extra : Bytes} : ∀ (n i : Nat) (s : Bytes), At extra i s → s.length < n →
    ∃ j sep, pathArgLoop extra n i = .ok (j, sep) ∧ i ≤ j ∧ j ≤ extra.length ∧
      (sep ≠ 0 → IsSep sep ∧ 1 ≤ j ∧ i ≤ j - 1 ∧ At extra (j - 1) (sep :: extra.drop j))
  | 0, _, _, _, h => by omega
  | n + 1, i, [], h, _ => by
    unfold pathArgLoop
    rw [if_neg (by have := h.nil; omega)]
    exact ⟨i, 0, rfl, Nat.le_refl _, h.1, fun h => absurd rfl h⟩
  | n + 1, i, c :: r, h, hl => by
    unfold pathArgLoop
    rw [if_pos h.lt, h.idx]
    simp only [ok_bind]
    split
    · rename_i hc
      refine ⟨i + 1, c, rfl, by omega, h.cons.1, fun _ => ⟨hc, by omega, by omega, ?_⟩⟩
      have : extra.drop (i + 1) = r := h.cons.2
      rw [this]; exact h
    · obtain ⟨j, sep, h1, h2, h3, h4⟩ := pathArgLoop_ok n (i + 1) r h.cons (by simp at hl; omega)
      exact ⟨j, sep, h1, by omega, h3, fun hs => ⟨(h4 hs).1, (h4 hs).2.1, by have := (h4 hs).2.2.1; omega, (h4 hs).2.2.2⟩⟩

theorem pathNextLoop_ok {extra : Bytes} {modi : Bool} : ∀ (n i : Nat) (esc pat : Bool) (s : Bytes),
    At extra i s → s.length < n →
    ∃ x, pathNextLoop extra modi n i esc pat = .ok x ∧ LoopOk extra i x
  | 0, _, _, _, _, _, h => by omega
  | n + 1, i, esc, pat, [], h, _ => by
    unfold pathNextLoop
    rw [if_neg (by have := h.nil; omega)]
    exact ⟨_, rfl, ⟨Nat.le_refl _, h.1⟩, fun h => absurd rfl h, fun h => absurd rfl h⟩
  | n + 1, i, esc, pat, c :: r, h, hl => by
    have step : ∀ {j : Nat} {x : Nat × UInt8 × Bool × Bool × Nat}, i ≤ j → LoopOk extra j x → LoopOk extra i x :=
      fun hj hx => ⟨⟨by have := hx.le.1; omega, hx.le.2⟩, hx.sep, fun hm => by
        have := hx.marg hm; exact ⟨by omega, this.2⟩⟩
    unfold pathNextLoop
    rw [if_pos h.lt, h.idx]
    simp only [ok_bind]
    split
    · cases r with
      | nil =>
        rw [if_pos h.cons.nil]
        exact ⟨_, rfl, ⟨by simp, h.cons.1⟩, fun h => absurd rfl h, fun h => absurd rfl h⟩
      | cons d r =>
        rw [if_neg h.cons.ne]
        obtain ⟨x, h1, h2⟩ := pathNextLoop_ok (modi := modi) n (i + 1 + 1) true pat r h.cons.cons (by simp at hl; omega)
        exact ⟨x, h1, step (by omega) h2⟩
    split
    · rename_i hc
      have hcol : extra[i]? = some c! ':' := by rw [h.getElem?, hc.2]
      cases r with
      | nil =>
        rw [if_pos h.cons.nil]
        refine ⟨_, rfl, ⟨by simp, h.cons.1⟩, fun h => absurd rfl h, fun _ => ⟨Nat.le_refl _, fun h => absurd rfl h, h.lt, hcol⟩⟩
      | cons d r =>
        rw [if_neg h.cons.ne, h.cons.idx]
        simp only [ok_bind]
        split
        · obtain ⟨j, h1, h2⟩ := procLeaf_at h.cons
          rw [h1]
          simp only [ok_bind]
          have hj : i + 1 ≤ j := by
            have e1 := h.cons.len
            have e2 := h2.len
            have := leafTok_lt (s := d :: r) (by simp)
            omega
          cases hs : (leafTok (d :: r)).2 with
          | nil =>
            rw [hs] at h2
            rw [if_neg (by have := h2.nil; omega)]
            exact ⟨_, rfl, ⟨by simp; omega, h2.1⟩, fun h => absurd rfl h, fun _ => ⟨Nat.le_refl _, fun h => absurd rfl h, h.lt, hcol⟩⟩
          | cons e q =>
            rw [hs] at h2
            rw [if_pos h2.lt, h2.idx]
            simp only [ok_bind]
            split
            · rename_i he
              refine ⟨_, rfl, ⟨by simp; omega, h2.cons.1⟩, fun _ => ⟨he.symm, by simp, ?_⟩,
                fun _ => ⟨Nat.le_refl _, fun _ => by simp; omega, h.lt, hcol⟩⟩
              have : extra.drop (j + 1) = q := h2.cons.2
              simp only [Nat.add_sub_cancel, this]; exact h2
            · exact ⟨_, rfl, ⟨by simp; omega, h2.1⟩, fun h => absurd rfl h, fun _ => ⟨Nat.le_refl _, fun h => absurd rfl h, h.lt, hcol⟩⟩
        · have hle := h.cons.len
          obtain ⟨j, sep, h1, h2, h3, h4⟩ := pathArgLoop_ok (extra.length + 1) (i + 1) (d :: r) h.cons (by omega)
          rw [h1]
          refine ⟨_, rfl, ⟨by simp; omega, h3⟩, fun hs => ⟨(h4 hs).1, (h4 hs).2.1, (h4 hs).2.2.2⟩,
            fun _ => ⟨Nat.le_refl _, fun hs => ?_, h.lt, hcol⟩⟩
          have := (h4 hs).2.2.1
          simp only; omega
    split
    · obtain ⟨x, h1, h2⟩ := pathNextLoop_ok (modi := modi) n (i + 1) esc true r h.cons (by simp at hl; omega)
      exact ⟨x, h1, step (by omega) h2⟩
    split
    · rename_i hc
      refine ⟨_, rfl, ⟨by simp, h.cons.1⟩, fun _ => ⟨hc, by simp, ?_⟩, fun h => absurd rfl h⟩
      have : extra.drop (i + 1) = r := h.cons.2
      simp only [Nat.add_sub_cancel, this]; exact h
    · obtain ⟨x, h1, h2⟩ := pathNextLoop_ok (modi := modi) n (i + 1) esc pat r h.cons (by simp at hl; omega)
      exact ⟨x, h1, step (by omega) h2⟩

theorem pathNextPlain_ok (extra : Bytes) (modi : Bool) :
    ∃ p, pathNextPlain extra modi = .ok p ∧ PathOk extra p := by
  obtain ⟨⟨i, sep, esc, pat, marg⟩, h1, h2⟩ := pathNextLoop_ok (modi := modi) (extra.length + 1) 0 false false extra
    (At.zero _) (by omega)
  have hle := h2.le
  have hs := h2.sep
  have hm := h2.marg
  simp only at hle hs hm
  unfold pathNextPlain
  rw [h1]
  simp only [ok_bind]
  have hrest : sliceFrom extra i = .ok (extra.drop i) := (At.mk' hle.2).sliceFrom
  have hone : ∀ m : Nat, m ≠ 0 → m = 0 ∨ 1 ≤ m := by omega
  by_cases h : sep = 0
  · rw [if_pos h]
    simp only [ok_bind, hrest]
    refine ⟨_, rfl, List.prefix_refl _, fun h' => absurd h h', List.drop_suffix _ _, fun h' => (hm h').2.2.1, fun _ => ?_, fun h' => (hm h').2.2.2⟩
    simp only; omega
  · rw [if_neg h]
    obtain ⟨a1, a2, a3⟩ := hs h
    rw [if_neg (by omega)]
    have e : extra = extra.take (i - 1) ++ (sep :: extra.drop i) := by
      have := a3.2
      rw [← this]; simp
    have hcomp : slice extra 0 (i - 1) = .ok (extra.take (i - 1)) := by
      unfold slice sub
      rw [if_pos (by omega)]; simp
    simp only [hcomp, ok_bind, hrest]
    refine ⟨_, rfl, List.take_prefix _ _, fun _ => ⟨a1, e⟩, List.drop_suffix _ _, fun h' => ?_, fun _ => ?_, fun h' => ?_⟩
    · have := (hm h').2.1 h
      simp only [List.length_take]; omega
    · simp only; omega
    · have := (hm h').2.1 h
      simp only [List.getElem?_take]
      rw [if_pos (by omega)]
      exact (hm h').2.2.2

/-- `scan_squash` at an index inside the text never fails. -/
theorem scanSquash_total {json : Bytes} {i : Nat} {c : UInt8} {s : Bytes} (h : At json i (c :: s)) :
    ∃ b q j, scanSquash json i = .ok (b, j) ∧ i < j ∧ At json j q := by
  have := scanSquash_at h
  cases hq : sq 1 false s with
  | none =>
    rw [hq] at this; simp only at this
    exact ⟨_, _, _, this, h.lt, At.end _⟩
  | some x =>
    obtain ⟨b, q⟩ := x
    rw [hq] at this; simp only at this
    refine ⟨_, _, _, this.1, ?_, this.2⟩
    have e1 := h.len
    have e2 := this.2.len
    have e3 := congrArg List.length (sq_append hq).1
    simp at e1 e3
    omega

theorem pathNextQueryEnd_ok {extra : Bytes} {i : Nat} {sep : UInt8} {s : Bytes} (hi : 1 < i) (hs : At extra i s)
    (hsep : sep = 0 ∨ (IsSep sep ∧ ∃ t, s = sep :: t)) :
    ∃ p, pathNextQueryEnd extra i sep = .ok p ∧ PathOk extra p := by
  have hle := hs.1
  have hcomp : slice extra 0 i = .ok (extra.take i) := by
    unfold slice sub
    rw [if_pos (by omega)]; simp
  have hlen : (extra.take i).length = i := by rw [List.length_take]; omega
  obtain ⟨rest, hr1, hr2, hr3⟩ : ∃ rest, sliceFrom extra (if sep = 0 then i else i + 1) = .ok rest ∧
      rest <:+ extra ∧ (sep ≠ 0 → IsSep sep ∧ extra = extra.take i ++ sep :: rest) := by
    by_cases h0 : sep = 0
    · exact ⟨s, by rw [if_pos h0]; exact hs.sliceFrom, by rw [← hs.2]; exact List.drop_suffix _ _, fun h => absurd h0 h⟩
    · obtain ⟨h2, t, rfl⟩ := hsep.resolve_left h0
      refine ⟨t, by rw [if_neg h0]; exact hs.cons.sliceFrom, by rw [← hs.cons.2]; exact List.drop_suffix _ _, fun _ => ⟨h2, ?_⟩⟩
      have := hs.2
      rw [← this]; simp
  unfold pathNextQueryEnd
  rw [hr1]
  simp only [ok_bind, hcomp]
  rw [if_neg (by omega)]
  have hidx : ∀ k, k < i → ∃ c, idx (extra.take i) k = .ok c := by
    intro k hk
    unfold idx
    rw [List.getElem?_eq_getElem (by omega)]
    exact ⟨_, rfl⟩
  have hp : PathOk extra ⟨extra.take i, false, false, sep, 0, rest⟩ :=
    ⟨List.take_prefix _ _, hr3, hr2, fun h => absurd rfl h, fun _ => .inl rfl, fun h => absurd rfl h⟩
  obtain ⟨last, hlast⟩ := hidx (i - 1) (by omega)
  obtain ⟨last2, hlast2⟩ := hidx (i - 2) (by omega)
  rw [hlen, hlast]
  simp only [ok_bind]
  split
  · rw [if_neg (by omega), hlast2]
    simp only [ok_bind]
    split
    · exact ⟨_, rfl, PathOk.empty _⟩
    · exact ⟨_, rfl, hp⟩
  · split
    · exact ⟨_, rfl, PathOk.empty _⟩
    · exact ⟨_, rfl, hp⟩

theorem pathNextQuery_ok {extra : Bytes} {c0 c1 : UInt8} {r : Bytes} (hE : extra = c0 :: c1 :: r) :
    ∃ p, pathNextQuery extra = .ok p ∧ PathOk extra p := by
  have h1 : At extra 1 (c1 :: r) := by rw [hE]; exact (At.zero (c0 :: c1 :: r)).cons
  unfold pathNextQuery
  rw [h1.idx]
  simp only [ok_bind]
  split
  · exact ⟨_, rfl, PathOk.empty _⟩
  obtain ⟨b, q, i, g1, g2, g3⟩ := scanSquash_total h1
  rw [g1]
  simp only [ok_bind]
  cases q with
  | nil =>
    rw [if_neg (by have := g3.nil; omega)]
    exact pathNextQueryEnd_ok g2 g3 (.inl rfl)
  | cons c q =>
    rw [if_pos g3.lt, g3.idx]
    simp only [ok_bind]
    split
    · cases q with
      | nil =>
        rw [if_neg (by have := g3.cons.nil; omega)]
        exact pathNextQueryEnd_ok (by omega) g3.cons (.inl rfl)
      | cons d q =>
        rw [if_pos g3.cons.lt, g3.cons.idx]
        simp only [ok_bind]
        split
        · rename_i hd
          exact pathNextQueryEnd_ok (by omega) g3.cons (.inr ⟨hd, _, rfl⟩)
        · exact ⟨_, rfl, PathOk.empty _⟩
    · split
      · rename_i hd
        exact pathNextQueryEnd_ok g2 g3 (.inr ⟨hd, _, rfl⟩)
      · exact ⟨_, rfl, PathOk.empty _⟩

theorem pathNextMultipath_ok {extra : Bytes} (hl : extra ≠ []) :
    ∃ p, pathNextMultipath extra = .ok p ∧ PathOk extra p := by
  obtain ⟨c, r, rfl⟩ := List.exists_cons_of_ne_nil hl
  obtain ⟨b, q, i, g1, g2, g3⟩ := scanSquash_total (At.zero (c :: r))
  unfold pathNextMultipath
  rw [g1]
  simp only [ok_bind]
  generalize hE : c :: r = extra at *
  have hle := g3.1
  have hcomp : slice extra 0 i = .ok (extra.take i) := by
    unfold slice sub
    rw [if_pos (by omega)]; simp
  have hend : sliceFrom extra extra.length = .ok [] := (At.end _).sliceFrom
  rw [hcomp, hend]
  simp only [ok_bind]
  have h0 : PathOk extra ⟨extra.take i, false, false, 0, 0, []⟩ :=
    ⟨List.take_prefix _ _, fun h => absurd rfl h, List.nil_suffix, fun h => absurd rfl h, fun _ => .inl rfl, fun h => absurd rfl h⟩
  cases q with
  | nil => rw [if_pos g3.nil]; exact ⟨_, rfl, h0⟩
  | cons d q =>
    rw [if_neg g3.ne, g3.idx]
    simp only [ok_bind]
    split
    · exact ⟨_, rfl, h0⟩
    · rename_i hd
      rw [g3.cons.sliceFrom]
      refine ⟨_, rfl, List.take_prefix _ _, fun _ => ⟨?_, ?_⟩, ?_, fun h => absurd rfl h, fun _ => .inl rfl, fun h => absurd rfl h⟩
      · simp only [IsSep]; by_cases e : d = c! '.'
        · exact .inl e
        · exact .inr (by simpa [e] using hd)
      · have := g3.2
        rw [← this]; simp
      · rw [← g3.cons.2]; exact List.drop_suffix _ _

/-- `path_next` never fails. -/
theorem pathNext_ok (extra : Bytes) : ∃ p, pathNext extra = .ok p ∧ PathOk extra p := by
  unfold pathNext
  cases extra with
  | nil => exact pathNextPlain_ok _ _
  | cons c r =>
    simp only
    split
    · exact pathNextPlain_ok _ _
    split
    · split
      · exact pathNextPlain_ok _ _
      · rename_i hl
        cases r with
        | nil => simp at hl
        | cons d r =>
          rw [(At.zero (c :: d :: r)).cons.idx]
          simp only [ok_bind]
          split
          · exact pathNextPlain_ok _ _
          · exact pathNextQuery_ok rfl
    split
    · exact pathNextMultipath_ok (by simp)
    · exact pathNextPlain_ok _ _

/-- `path_next` as a total function. -/
def pNext (extra : Bytes) : Path := match pathNext extra with | .ok p => p | .error _ => Path.empty

theorem pathNext_eq (extra : Bytes) : pathNext extra = .ok (pNext extra) := by
  obtain ⟨p, h, _⟩ := pathNext_ok extra
  unfold pNext; rw [h]

theorem pNext_ok (extra : Bytes) : PathOk extra (pNext extra) := by
  obtain ⟨p, h, h2⟩ := pathNext_ok extra
  unfold pNext; rw [h]; exact h2

theorem PathOk.lt {extra : Bytes} {p : Path} (h : PathOk extra p) (hs : p.sep ≠ 0) : p.extra.length < extra.length := by
  have := (h.sep hs).2
  rw [this]; simp; omega

theorem PathOk.le {extra : Bytes} {p : Path} (h : PathOk extra p) : p.extra.length ≤ extra.length := h.rest.length_le

/-! ### Components -/

/-- The bytes that mean something inside a path component. -/
def Special (c : UInt8) : Prop := c = c! '\\' ∨ c = c! '*' ∨ c = c! '?' ∨ IsSep c
instance (c : UInt8) : Decidable (Special c) := by unfold Special; infer_instance

/-- A component as `path_next` reads it, with its flags: was there a backslash,
was there a wildcard. -/
inductive CompBody : Bytes → Bool → Bool → Prop
  | nil : CompBody [] false false
  | esc {c : UInt8} {r : Bytes} {e p : Bool} : CompBody r e p → CompBody (c! '\\' :: c :: r) true p
  | wild {c : UInt8} {r : Bytes} {e p : Bool} : c = c! '*' ∨ c = c! '?' → CompBody r e p → CompBody (c :: r) e true
  | plain {c : UInt8} {r : Bytes} {e p : Bool} : ¬ Special c → CompBody r e p → CompBody (c :: r) e p

/-- The byte does not start a query, modifier or multipath. -/
def PlainFirst : Bytes → Prop
  | [] => True
  | c :: _ => c ≠ c! '@' ∧ c ≠ c! '#' ∧ c ≠ c! '{' ∧ c ≠ c! '['
instance (k : Bytes) : Decidable (PlainFirst k) := by cases k <;> unfold PlainFirst <;> infer_instance

/-- What follows a component: nothing, or a separator and more. -/
def Tail (sep : UInt8) (extra : Bytes) : Bytes → Prop
  | [] => sep = 0 ∧ extra = []
  | c :: r => IsSep c ∧ sep = c ∧ extra = r

theorem pathNextLoop_comp {extra : Bytes} {sep : UInt8} {t rest : Bytes} (ht : Tail sep rest t) :
    ∀ {k : Bytes} {e p : Bool}, CompBody k e p → ∀ (n i : Nat) (e0 p0 : Bool), At extra i (k ++ t) →
      k.length + t.length < n →
      pathNextLoop extra false n i e0 p0 =
        .ok (i + k.length + (if sep = 0 then 0 else 1), sep, e0 || e, p0 || p, 0) := by
  intro k e p hk
  induction hk with
  | nil =>
    intro n i e0 p0 h hl
    obtain ⟨n, rfl⟩ : ∃ m, n = m + 1 := ⟨n - 1, by omega⟩
    rw [List.nil_append] at h
    unfold pathNextLoop
    cases t with
    | nil =>
      obtain ⟨rfl, rfl⟩ := ht
      rw [if_neg (by have := h.nil; omega)]
      simp
    | cons c r =>
      obtain ⟨h1, rfl, rfl⟩ := ht
      rw [if_pos h.lt, h.idx]
      simp only [ok_bind, Bool.false_eq_true, false_and, if_false]
      unfold IsSep at h1
      rw [if_neg (by grind), if_neg (by grind), if_pos h1, if_neg (by grind)]
      simp
  | @esc c r e p _ ih =>
    intro n i e0 p0 h hl
    obtain ⟨n, rfl⟩ : ∃ m, n = m + 1 := ⟨n - 1, by omega⟩
    rw [List.cons_append, List.cons_append] at h
    unfold pathNextLoop
    rw [if_pos h.lt, h.idx]
    simp only [ok_bind, if_true, Bool.false_eq_true, false_and, if_false]
    rw [if_neg h.cons.ne, ih n (i + 1 + 1) true p0 h.cons.cons (by simp at hl; omega)]
    simp only [List.length_cons, Bool.true_or, Bool.or_true]
    congr 2; omega
  | @wild c r e p hc _ ih =>
    intro n i e0 p0 h hl
    obtain ⟨n, rfl⟩ : ∃ m, n = m + 1 := ⟨n - 1, by omega⟩
    rw [List.cons_append] at h
    unfold pathNextLoop
    rw [if_pos h.lt, h.idx]
    simp only [ok_bind, Bool.false_eq_true, false_and, if_false]
    rw [if_neg (by grind), if_pos hc, ih n (i + 1) e0 true h.cons (by simp at hl; omega)]
    simp only [List.length_cons, Bool.true_or, Bool.or_true]
    congr 2; omega
  | @plain c r e p hc _ ih =>
    intro n i e0 p0 h hl
    obtain ⟨n, rfl⟩ : ∃ m, n = m + 1 := ⟨n - 1, by omega⟩
    rw [List.cons_append] at h
    unfold pathNextLoop
    unfold Special IsSep at hc
    rw [if_pos h.lt, h.idx]
    simp only [ok_bind, Bool.false_eq_true, false_and, if_false]
    rw [if_neg (by grind), if_neg (by grind), if_neg (by grind), ih n (i + 1) e0 p0 h.cons (by simp at hl; omega)]
    simp only [List.length_cons]
    congr 2; omega

theorem pathNextPlain_comp {k : Bytes} {e p : Bool} {sep : UInt8} {t rest : Bytes} (hk : CompBody k e p)
    (ht : Tail sep rest t) : pathNextPlain (k ++ t) false = .ok ⟨k, e, p, sep, 0, rest⟩ := by
  unfold pathNextPlain
  rw [pathNextLoop_comp ht hk _ 0 false false (At.zero _) (by simp)]
  simp only [ok_bind, Bool.false_or, Nat.zero_add]
  cases t with
  | nil =>
    obtain ⟨rfl, rfl⟩ := ht
    rw [if_pos rfl, if_pos rfl, List.append_nil]
    rw [show sliceFrom k (k.length + 0) = .ok [] from (At.end k).sliceFrom]
    rfl
  | cons c r =>
    obtain ⟨h1, rfl, rfl⟩ := ht
    have h0 : sep ≠ 0 := by unfold IsSep at h1; grind
    rw [if_neg h0, if_neg h0, if_neg (by omega)]
    have hA : At (k ++ sep :: rest) 0 (k ++ sep :: rest) := At.zero _
    rw [hA.slice' (t := k) (by omega), (hA.append' (j := k.length) (by omega)).cons.sliceFrom]
    rfl

/-- `path_next` on an ordinary component. -/
theorem pathNext_comp {k : Bytes} {e p : Bool} {sep : UInt8} {t rest : Bytes} (hk : CompBody k e p)
    (hf : PlainFirst k) (ht : Tail sep rest t) : pathNext (k ++ t) = .ok ⟨k, e, p, sep, 0, rest⟩ := by
  rw [← pathNextPlain_comp hk ht]
  unfold pathNext
  cases k with
  | nil =>
    cases t with
    | nil => rfl
    | cons c r =>
      obtain ⟨h1, _, _⟩ := ht
      unfold IsSep at h1
      simp only [List.nil_append]
      rw [if_neg (by grind), if_neg (by grind), if_neg (by grind)]
  | cons c k =>
    obtain ⟨f1, f2, f3, f4⟩ := hf
    simp only [List.cons_append]
    rw [if_neg f1, if_neg f2, if_neg (by grind)]

theorem pNext_comp {k : Bytes} {e p : Bool} {sep : UInt8} {t rest : Bytes} (hk : CompBody k e p)
    (hf : PlainFirst k) (ht : Tail sep rest t) : pNext (k ++ t) = ⟨k, e, p, sep, 0, rest⟩ := by
  have := pathNext_eq (k ++ t)
  rw [pathNext_comp hk hf ht] at this
  simpa using this.symm

/-- `#` followed by nothing or a separator. -/
theorem pathNext_hash {sep : UInt8} {t rest : Bytes} (ht : Tail sep rest t) :
    pathNext (c! '#' :: t) = .ok ⟨[c! '#'], false, false, sep, 0, rest⟩ := by
  have hk : CompBody [c! '#'] false false := .plain (by decide) .nil
  have := pathNextPlain_comp hk ht
  rw [← this]
  unfold pathNext
  simp only
  rw [if_neg (by decide), if_pos trivial]
  cases t with
  | nil => rfl
  | cons c r =>
    obtain ⟨h1, _, _⟩ := ht
    rw [if_neg (by simp), (At.zero (c! '#' :: c :: r)).cons.idx]
    simp only [ok_bind]
    rw [if_pos (show c = c! '.' ∨ c = c! '|' from h1)]; rfl

theorem isModifier_comp {k : Bytes} (hf : PlainFirst k) (e p : Bool) (sep : UInt8) (rest : Bytes) :
    Path.isModifier ⟨k, e, p, sep, 0, rest⟩ = false ∧ Path.isMultipath ⟨k, e, p, sep, 0, rest⟩ = false := by
  cases k with
  | nil => exact ⟨rfl, rfl⟩
  | cons c k =>
    obtain ⟨f1, f2, f3, f4⟩ := hf
    simp [Path.isModifier, Path.isMultipath, f1, f3, f4]

end Gjson
