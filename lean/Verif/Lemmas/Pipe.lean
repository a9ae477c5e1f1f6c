import Verif.Lemmas.Lookup
/-
A pipe splits a path: what follows it is applied to what was found before it.
-/
namespace Gjson
open Spec

/-- Two computations give related results or fail alike. -/
inductive RelRes {α β : Type} (R : α → β → Prop) : Res α → Res β → Prop
  | ok {a : α} {b : β} : R a b → RelRes R (.ok a) (.ok b)
  | error (e : Fault) : RelRes R (.error e) (.error e)

theorem RelRes.bind {α β γ δ : Type} {R : α → β → Prop} {S : γ → δ → Prop} {a : Res α} {b : Res β}
    {f : α → Res γ} {g : β → Res δ} (h : RelRes R a b) (hf : ∀ x y, R x y → RelRes S (f x) (g y)) :
    RelRes S (a >>= f) (b >>= g) := by
  cases h with
  | ok h => exact hf _ _ h
  | error e => exact .error e

/-- An ordinary component: wildcards and escapes allowed. -/
def OrdComp (k : Bytes) : Prop := (∃ e p, CompBody k e p) ∧ PlainFirst k ∧ k ≠ []

/-- A dot path with a pipe and more behind it. -/
def piped (ks : List Bytes) (b : Bytes) : Bytes := dotPath ks ++ c! '|' :: b

theorem piped_cons (k k' : Bytes) (ks : List Bytes) (b : Bytes) :
    piped (k :: k' :: ks) b = k ++ c! '.' :: piped (k' :: ks) b := by
  simp [piped, dotPath]

theorem ord_next {k : Bytes} {ks : List Bytes} (b : Bytes) (h : OrdComp k) :
    ∃ e p, (ks = [] → pNext (dotPath (k :: ks)) = ⟨k, e, p, 0, 0, []⟩ ∧
        pNext (piped (k :: ks) b) = ⟨k, e, p, c! '|', 0, b⟩) ∧
      (ks ≠ [] → pNext (dotPath (k :: ks)) = ⟨k, e, p, c! '.', 0, dotPath ks⟩ ∧
        pNext (piped (k :: ks) b) = ⟨k, e, p, c! '.', 0, piped ks b⟩) := by
  obtain ⟨⟨e, p, hc⟩, hf, _⟩ := h
  refine ⟨e, p, ?_, ?_⟩
  · rintro rfl
    refine ⟨?_, pNext_comp hc hf ⟨.inr rfl, rfl, rfl⟩⟩
    have := pNext_comp hc hf (t := []) (sep := 0) (rest := []) ⟨rfl, rfl⟩
    simpa [dotPath] using this
  · intro hne
    cases ks with
    | nil => exact absurd rfl hne
    | cons k' ks =>
      exact ⟨pNext_comp hc hf ⟨.inl rfl, rfl, rfl⟩, by
        rw [piped_cons]; exact pNext_comp hc hf ⟨.inl rfl, rfl, rfl⟩⟩

theorem ord_plain {k : Bytes} {ks : List Bytes} (b : Bytes) (h : OrdComp k) :
    ((pNext (dotPath (k :: ks))).isModifier = false ∧ (pNext (dotPath (k :: ks))).isMultipath = false) ∧
    ((pNext (piped (k :: ks) b)).isModifier = false ∧ (pNext (piped (k :: ks) b)).isMultipath = false) := by
  obtain ⟨e, p, h1, h2⟩ := ord_next (ks := ks) b h
  by_cases hks : ks = []
  · rw [(h1 hks).1, (h1 hks).2]
    exact ⟨isModifier_comp h.2.1 _ _ _ _, isModifier_comp h.2.1 _ _ _ _⟩
  · rw [(h2 hks).1, (h2 hks).2]
    exact ⟨isModifier_comp h.2.1 _ _ _ _, isModifier_comp h.2.1 _ _ _ _⟩

/-- Ordinary components. -/
def OrdComps (ks : List Bytes) : Prop := ∀ k ∈ ks, OrdComp k

/-- The same value, and paths that differ by the pipe. -/
def Twin (b : Bytes) (n : Nat) (x y : Value × Path) : Prop :=
  x.1 = y.1 ∧ ∃ ks, ks ≠ [] ∧ ks.length ≤ n ∧ OrdComps ks ∧ x.2 = pNext (piped ks b) ∧ y.2 = pNext (dotPath ks)

theorem Twin.mono {b : Bytes} {n m : Nat} {x y : Value × Path} (h : Twin b n x y) (hnm : n ≤ m) : Twin b m x y := by
  obtain ⟨h1, ks, h2, h3, h4⟩ := h
  exact ⟨h1, ks, h2, by omega, h4⟩

theorem RelRes.mono {α β : Type} {R S : α → β → Prop} {a : Res α} {b : Res β} (h : RelRes R a b)
    (hRS : ∀ x y, R x y → S x y) : RelRes S a b := by
  cases h with
  | ok h => exact .ok (hRS _ _ h)
  | error e => exact .error e

theorem gObjLoop_rel {R : Value × Path → Value × Path → Prop} {d1 d2 : Bytes → Res (Value × Path)} {p1 p2 : Path}
    (L : Nat) (hm : ∀ s, pKeyMatch s p1 = pKeyMatch s p2) (hd : p1.dives = p2.dives)
    (hR : ∀ v, R (v, p1) (v, p2)) (hv : ∀ x y, R x y → x.1 = y.1)
    (hdive : p1.dives = true → ∀ s, RelRes R (d1 s) (d2 s)) :
    ∀ s, RelRes R (gObjLoop d1 L p1 s) (gObjLoop d2 L p2 s) := by
  intro s
  generalize hn : s.length = n
  induction n using Nat.strongRecOn generalizing s with
  | ind n ih =>
    cases s with
    | nil => rw [gObjLoop_nil, gObjLoop_nil]; exact .ok (hR _)
    | cons c r =>
      by_cases c1 : c = c! '}'
      · rw [c1, gObjLoop_close, gObjLoop_close]; exact .ok (hR _)
      by_cases c2 : c = c! '"'
      · subst c2
        cases hq : qStr r with
        | none => rw [gObjLoop_nokey _ _ _ hq, gObjLoop_nokey _ _ _ hq]; exact .ok (hR _)
        | some y =>
          obtain ⟨b, f, q⟩ := y
          cases hv' : pSkipColon q with
          | nil => rw [gObjLoop_noval _ _ _ hq hv', gObjLoop_noval _ _ _ hq hv']; exact .ok (hR _)
          | cons c3 r3 =>
            rw [gObjLoop_key _ _ _ hq hv', gObjLoop_key _ _ _ hq hv', hm, ← hd]
            have l1 := qStr_lt hq
            have l2 := pSkipColon_le q
            rw [hv'] at l2
            have l3 := leafTok_lt (s := c3 :: r3) (by simp)
            simp only [List.length_cons] at hn l2 l3
            have next := ih (leafTok (c3 :: r3)).2.length (by omega) _ rfl
            split
            · split
              · rename_i hdv
                refine (hdive hdv.1 (c3 :: r3)).bind ?_
                rintro ⟨v1, q1⟩ ⟨v2, q2⟩ hxy
                have := hv _ _ hxy
                simp only at this ⊢
                subst this
                split
                · exact .ok hxy
                · exact ih (c3 :: r3).length (by simp only [List.length_cons]; omega) _ rfl
              · split
                · exact .ok (hR _)
                · exact next
            · exact next
      · rw [gObjLoop_skip _ _ _ _ c1 c2, gObjLoop_skip _ _ _ _ c1 c2]
        exact ih r.length (by simp at hn; omega) r rfl

theorem gArrVals_ord (rec : GetFn) {k : Bytes} (hk : PlainFirst k) (e p : Bool) (sep : UInt8) (m : Nat) (rest : Bytes)
    (vals : List Value) : gArrVals rec ⟨k, e, p, sep, m, rest⟩ vals =
      .ok (if (parseI64 k).getD (-1) < 0 then Value.default else vals.getD ((parseI64 k).getD (-1)).toNat Value.default,
        ⟨k, e, p, sep, m, rest⟩) := by
  unfold gArrVals
  simp only
  cases k with
  | nil => rfl
  | cons c r =>
    simp only
    rw [if_neg hk.2.1]

theorem gCont_twin (b : Bytes) (L : Nat) {ks : List Bytes} : OrdComps ks → ks ≠ [] → ∀ s,
    RelRes (Twin b ks.length) (gCont get L (pNext (piped ks b)) s) (gCont get L (pNext (dotPath ks)) s) := by
  induction ks with
  | nil => intro _ h; exact absurd rfl h
  | cons k ks ih =>
    intro ho _ s
    have hk := ho k (by simp)
    have hto : OrdComps ks := fun x hx => ho x (List.mem_cons_of_mem _ hx)
    have hself : ∀ v, Twin b (k :: ks).length (v, pNext (piped (k :: ks) b)) (v, pNext (dotPath (k :: ks))) :=
      fun v => ⟨rfl, k :: ks, by simp, Nat.le_refl _, ho, rfl, rfl⟩
    obtain ⟨e, p, h1, h2⟩ := ord_next (ks := ks) b hk
    obtain ⟨s1, r1, s2, r2, e1, e2, hdd, hnext⟩ : ∃ s1 r1 s2 r2, pNext (piped (k :: ks) b) = ⟨k, e, p, s1, 0, r1⟩ ∧
        pNext (dotPath (k :: ks)) = ⟨k, e, p, s2, 0, r2⟩ ∧
        (Path.dives ⟨k, e, p, s1, 0, r1⟩ = Path.dives ⟨k, e, p, s2, 0, r2⟩) ∧
        (Path.dives ⟨k, e, p, s1, 0, r1⟩ = true → ks ≠ [] ∧ r1 = piped ks b ∧ r2 = dotPath ks) := by
      by_cases hks : ks = []
      · refine ⟨_, _, _, _, (h1 hks).2, (h1 hks).1, ?_, ?_⟩
        · unfold Path.dives; simp
        · intro hd; unfold Path.dives at hd; revert hd; simp
      · refine ⟨_, _, _, _, (h2 hks).2, (h2 hks).1, ?_, fun _ => ⟨hks, rfl, rfl⟩⟩
        cases ks with
        | nil => exact absurd rfl hks
        | cons k' ks =>
          have := ord_plain (ks := ks) b (hto k' (by simp))
          unfold Path.dives
          simp only [this.1.1, this.1.2, this.2.1, this.2.2]
    rw [e1, e2]
    rw [e1, e2] at hself
    unfold gCont
    split
    · rename_i hs
      cases s with
      | nil => simp at hs
      | cons c r =>
        simp at hs
        subst hs
        rw [gObj_cons, gObj_cons]
        refine gObjLoop_rel (R := Twin b (k :: ks).length) (p1 := ⟨k, e, p, s1, 0, r1⟩) (p2 := ⟨k, e, p, s2, 0, r2⟩) L
          (fun s => rfl) hdd hself (fun x y h => h.1) ?_ r
        intro hd s
        obtain ⟨hks, rfl, rfl⟩ := hnext hd
        rw [if_pos hd, if_pos (by rw [← hdd]; exact hd)]
        exact (ih hto hks s).mono fun x y h => h.mono (by simp)
    · unfold gArr
      rw [gArrVals_ord _ hk.2.1, gArrVals_ord _ hk.2.1]
      exact .ok (hself _)

theorem gStart_twin (b : Bytes) (L : Nat) {ks : List Bytes} (ho : OrdComps ks) (hks : ks ≠ []) : ∀ s,
    RelRes (Twin b ks.length) (gStart get L (pNext (piped ks b)) s) (gStart get L (pNext (dotPath ks)) s)
  | [] => .ok ⟨rfl, ks, hks, Nat.le_refl _, ho, rfl, rfl⟩
  | c :: r => by
    unfold gStart
    split
    · exact gStart_twin b L ho hks r
    have := gCont_twin b L ho hks (c :: r)
    unfold gCont at this
    split
    · rename_i hc
      rw [if_pos (by simp [hc]), if_pos (by simp [hc])] at this
      exact this
    split
    · rename_i hc _
      rw [if_neg (by simpa using hc), if_neg (by simpa using hc)] at this
      exact this
    · exact .ok ⟨rfl, ks, hks, Nat.le_refl _, ho, rfl, rfl⟩

theorem linesPrefix_ord {k : Bytes} (h : OrdComp k) (t : Bytes) : linesPrefix (k ++ t) = (k ++ t, false) := by
  obtain ⟨⟨e, p, hc⟩, _, hne⟩ := h
  cases k with
  | nil => exact absurd rfl hne
  | cons c k =>
    have hd : c ≠ c! '.' := by
      cases hc with
      | esc => decide
      | wild h => rcases h with rfl | rfl <;> decide
      | plain h => intro hcc; subst hcc; exact h (by unfold Special IsSep; decide)
    unfold linesPrefix
    rw [List.cons_append]
    split
    · rename_i heq
      simp only [List.cons.injEq] at heq
      rw [if_neg (by rw [← heq.1]; simp [hd])]
    · rfl

theorem get_dotOrd {k : Bytes} {ks : List Bytes} (h : OrdComp k) (json b : Bytes) :
    get json (dotPath (k :: ks)) = (gStart get json.length (pNext (dotPath (k :: ks))) json >>= finish) ∧
    get json (piped (k :: ks) b) = (gStart get json.length (pNext (piped (k :: ks) b)) json >>= finish) := by
  have hp := ord_plain (ks := ks) b h
  constructor
  · refine get_start ?_ hp.1 json
    cases ks with
    | nil => have := linesPrefix_ord h []; simpa [dotPath] using this
    | cons k' ks => exact linesPrefix_ord h _
  · refine get_start ?_ hp.2 json
    cases ks with
    | nil => exact linesPrefix_ord h _
    | cons k' ks => rw [piped_cons]; exact linesPrefix_ord h _

theorem relRes_same {a b : Res Value} (h : RelRes SameValue a b) : SameRes a b := by
  cases h with
  | ok h => exact .ok h
  | error e => exact .error e

theorem SameRes.rel {a b : Res Value} (h : SameRes a b) : RelRes SameValue a b := by
  cases h with
  | ok h => exact .ok h
  | error e => exact .error e

/-- Values that cannot be told apart are searched alike. -/
theorem getIn_congr_same {v w : Value} (hv : OneText v) (hw : OneText w) (h : SameValue v w) (path : Bytes) :
    SameRes (getIn get v path) (getIn get w path) := by
  refine (getIn_same hv path).trans ?_
  rw [h.json]
  exact (getIn_same hw path).symm

/-- A pipe after ordinary components. -/
theorem get_piped (b : Bytes) {n : Nat} : ∀ {ks : List Bytes}, ks.length ≤ n → OrdComps ks → ks ≠ [] → ∀ json,
    SameRes (get json (piped ks b)) (get json (dotPath ks) >>= fun v => v.get b) := by
  induction n with
  | zero => intro ks hn _ hne; cases ks <;> simp at hn hne
  | succ n ih =>
    intro ks hn ho hne json
    obtain ⟨k, ks', rfl⟩ : ∃ k ks', ks = k :: ks' := by
      cases ks with
      | nil => exact absurd rfl hne
      | cons a b => exact ⟨a, b, rfl⟩
    obtain ⟨g1, g2⟩ := get_dotOrd (ks := ks') (ho k (by simp)) json b
    rw [g1, g2]
    have ht := gStart_twin b json.length ho hne json
    revert ht
    cases hx : gStart get json.length (pNext (piped (k :: ks') b)) json with
    | error e =>
      generalize gStart get json.length (pNext (dotPath (k :: ks'))) json = Y
      intro ht; cases ht; exact .error _
    | ok x =>
      cases hy : gStart get json.length (pNext (dotPath (k :: ks'))) json with
      | error e => intro ht; cases ht
      | ok y =>
        intro ht
        cases ht with
        | ok ht =>
        obtain ⟨h1, ms, hm1, hm2, hm3, h2, h3⟩ := ht
        simp only [ok_bind]
        have hone := (gStart_prov hx).oneText
        obtain ⟨v, p1⟩ := x
        obtain ⟨v', p2⟩ := y
        simp only at h1 h2 h3 hone
        subst h1 h2 h3
        obtain ⟨m, ms, rfl⟩ : ∃ m ms', ms = m :: ms' := by
          cases ms with
          | nil => exact absurd rfl hm1
          | cons a b => exact ⟨a, b, rfl⟩
        obtain ⟨e, p, x1, x2⟩ := ord_next (ks := ms) b (hm3 m (by simp))
        by_cases hms : ms = []
        · obtain ⟨y1, y2⟩ := x1 hms
          unfold finish
          rw [y1, y2]
          exact .refl _
        · obtain ⟨y1, y2⟩ := x2 hms
          have f1 : finish (v, pNext (piped (m :: ms) b)) = getIn get v (piped ms b) := by rw [y2]; rfl
          have f2 : finish (v, pNext (dotPath (m :: ms))) = getIn get v (dotPath ms) := by rw [y1]; rfl
          rw [f1, f2]
          have hlen : ms.length ≤ n := by simp at hm2 hn; omega
          have ih' := ih hlen (fun x hx => hm3 x (List.mem_cons_of_mem _ hx)) hms v.json
          refine (getIn_same hone _).trans (ih'.trans ?_)
          have hs := (getIn_same hone (dotPath ms)).symm
          revert hs
          cases hu : get v.json (dotPath ms) with
          | error e => generalize getIn get v (dotPath ms) = Y; intro hs; cases hs; exact .error _
          | ok u =>
            cases hw : getIn get v (dotPath ms) with
            | error e => intro hs; cases hs
            | ok w =>
              intro hs
              cases hs with
              | ok hs =>
                exact getIn_congr_same (get_prov hu).oneText (valueGet_prov hw).oneText hs b

end Gjson
