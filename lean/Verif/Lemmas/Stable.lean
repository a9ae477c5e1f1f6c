import Verif.Lemmas.Search
/-
`get` calls itself only on shorter paths and on the fixed option names of the
modifiers. So the bound on the depth of the recursion in the model never
matters, and `get` satisfies its own recursive equation.
-/
namespace Gjson

/-- The paths used by the modifiers to read their options. -/
def optionNames : List Bytes := [b!"indent", b!"prefix", b!"sortKeys", b!"width", b!"preserve", b!"deep"]

/-- Two candidates for the recursive `get` that agree on paths shorter than `n`
and on the option names. -/
structure Agree (n : Nat) (rec rec' : GetFn) : Prop where
  short : ∀ json p, p.length < n → rec json p = rec' json p
  opts : ∀ json, ∀ p ∈ optionNames, rec json p = rec' json p

/-- Everything a search along `p` passes to `get` is shorter than `n`. -/
structure Sized (n : Nat) (p : Path) : Prop where
  comp : p.comp.head? = some c! '#' → p.comp.length ≤ n
  extra : p.sep ≠ 0 → p.extra.length < n

theorem PathOk.sized {extra : Bytes} {p : Path} {n : Nat} (h : PathOk extra p) (hn : extra.length ≤ n) : Sized n p :=
  ⟨fun _ => Nat.le_trans h.comp.length_le hn, fun hs => Nat.lt_of_lt_of_le (h.lt hs) hn⟩

theorem getIn_congr {rec rec' : GetFn} {p : Bytes} (h : ∀ json, rec json p = rec' json p) (v : Value) :
    getIn rec v p = getIn rec' v p := by
  unfold getIn; simp only [h]

theorem elemMatches_congr {rec rec' : GetFn} {lh : Bytes} (h : lh ≠ [] → ∀ json, rec json lh = rec' json lh)
    (op rh : Bytes) (v : Value) : elemMatches rec lh op rh v = elemMatches rec' lh op rh v := by
  unfold elemMatches
  split
  · rename_i hl; rw [getIn_congr (h hl)]
  · rfl

theorem gArrVals_congr {n : Nat} {rec rec' : GetFn} (ha : Agree n rec rec') {path : Path} (hp : Sized n path)
    (vals : List Value) : gArrVals rec path vals = gArrVals rec' path vals := by
  unfold gArrVals
  simp only
  cases hc : path.comp with
  | nil => rfl
  | cons c t =>
    simp only
    by_cases c1 : c = c! '#'
    · rw [if_pos c1, if_pos c1]
      have hlen : path.comp.length ≤ n := hp.comp (by rw [hc, c1]; rfl)
      have hg : path.sep = c! '.' → ∀ v, getIn rec v (pGroup path).1 = getIn rec' v (pGroup path).1 := by
        intro hs v
        have h1 := (pGroup_ok path hs).pre.length_le
        have h2 := hp.extra (by rw [hs]; decide)
        exact getIn_congr (fun json => ha.short json _ (by omega)) v
      have hm : elemMatches rec (pParts path).1 (pParts path).2.1 (pParts path).2.2 =
          elemMatches rec' (pParts path).1 (pParts path).2.1 (pParts path).2.2 := by
        funext v
        refine elemMatches_congr (fun hne json => ha.short json _ ?_) _ _ v
        have := (pParts_ok path).len hne
        omega
      split
      · split
        · rename_i hs
          have : (fun v => do .ok (some (← getIn rec v (pGroup path).1)) : Value → Res (Option Value)) =
              (fun v => do .ok (some (← getIn rec' v (pGroup path).1))) := by
            funext v; rw [hg hs]
          rw [this]
        · rfl
      · split
        · have : (fun v => do
              if ← elemMatches rec (pParts path).1 (pParts path).2.1 (pParts path).2.2 v then
                if path.sep = c! '.' then do .ok (some (← getIn rec v (pGroup path).1)) else .ok (some v)
              else .ok none : Value → Res (Option Value)) =
              (fun v => do
              if ← elemMatches rec' (pParts path).1 (pParts path).2.1 (pParts path).2.2 v then
                if path.sep = c! '.' then do .ok (some (← getIn rec' v (pGroup path).1)) else .ok (some v)
              else .ok none) := by
            funext v
            rw [hm]
            by_cases hs : path.sep = c! '.'
            · simp only [hs, hg hs]
            · simp only [hs, if_false]
          rw [this]
        · rw [hm]
    · rw [if_neg c1, if_neg c1]

theorem gArr_congr {n : Nat} {rec rec' : GetFn} (ha : Agree n rec rec') {path : Path} (hp : Sized n path)
    (L : Nat) (lines : Bool) (s : Bytes) : gArr rec L lines path s = gArr rec' L lines path s :=
  gArrVals_congr ha hp _

theorem Sized.next {n : Nat} {path : Path} (hp : Sized n path) (h : path.dives = true) :
    Sized n (pNext path.extra) := by
  have h1 : path.sep = c! '.' := by unfold Path.dives at h; simp at h; exact h.1.1
  exact (pNext_ok _).sized (Nat.le_of_lt (hp.extra (by rw [h1]; decide)))

theorem gObj_congr {n : Nat} {rec rec' : GetFn} (ha : Agree n rec rec') (L : Nat) : ∀ (k : Nat) {path : Path},
    pathRank path < k → Sized n path → ∀ s, gObj rec L path s = gObj rec' L path s
  | 0, _, h, _, _ => by omega
  | k + 1, path, h, hp, s => by
    rw [gObj.eq_def, gObj.eq_def rec']
    cases s with
    | nil => rfl
    | cons c r =>
      simp only
      split
      · rfl
      · congr 1
        funext v
        split
        · rename_i hd
          have := pathRank_next hd
          split
          · exact gObj_congr ha L k (by omega) (hp.next hd) v
          · exact gArr_congr ha (hp.next hd) _ _ _
        · rfl

theorem gStart_congr {n : Nat} {rec rec' : GetFn} (ha : Agree n rec rec') {path : Path} (hp : Sized n path)
    (L : Nat) : ∀ s, gStart rec L path s = gStart rec' L path s
  | [] => rfl
  | c :: r => by
    unfold gStart
    rw [gStart_congr ha hp L r, gObj_congr ha L (pathRank path + 1) (Nat.lt_succ_self _) hp, gArr_congr ha hp]

/-! ### Modifiers and multipaths -/

theorem modFlattenN_congr {rec rec' : GetFn} (h : ∀ json, ∀ p ∈ optionNames, rec json p = rec' json p) :
    ∀ (k : Nat) (json arg : Bytes), modFlattenN rec k json arg = modFlattenN rec' k json arg
  | 0, _, _ => rfl
  | k + 1, json, arg => by
    unfold modFlattenN
    simp only [h arg b!"deep" (by decide), modFlattenN_congr h k]

theorem modApply_congr {rec rec' : GetFn} (h : ∀ json, ∀ p ∈ optionNames, rec json p = rec' json p)
    (name json arg : Bytes) : modApply rec name json arg = modApply rec' name json arg := by
  have h1 : modPretty rec json arg = modPretty rec' json arg := by
    unfold modPretty
    rw [h arg b!"indent" (by decide), h arg b!"prefix" (by decide), h arg b!"sortKeys" (by decide),
      h arg b!"width" (by decide)]
  have h2 : modFlatten rec json arg = modFlatten rec' json arg := modFlattenN_congr h _ _ _
  have h3 : modJoin rec json arg = modJoin rec' json arg := by
    unfold modJoin; rw [h arg b!"preserve" (by decide)]
  unfold modApply
  rw [h1, h2, h3]

theorem modExec_congr {rec rec' : GetFn} (h : ∀ json, ∀ p ∈ optionNames, rec json p = rec' json p)
    (json : Bytes) (path : Path) : modExec rec json path = modExec rec' json path := by
  unfold modExec
  simp only [modApply_congr h]

theorem slice_len {b x : Bytes} {s e : Nat} (h : slice b s e = .ok x) : x.length ≤ b.length ∧ e - s = x.length ∧ e ≤ b.length ∧ s ≤ e := by
  unfold slice at h
  split at h
  · rename_i hse
    simp at h; subst h; unfold sub; simp; omega
  · simp at h

theorem compAt_len {path : Bytes} {s i : Nat} {c : Option Nat} {k p : Bytes}
    (h : compAt path s i c = .ok (k, p)) : p.length ≤ path.length := by
  unfold compAt at h
  split at h
  · obtain ⟨a, h1, h2⟩ := bind_eq_ok.1 h
    obtain ⟨b, h3, h4⟩ := bind_eq_ok.1 h2
    simp at h4
    rw [← h4.2]
    exact (slice_len h3).1
  · obtain ⟨a, h1, h2⟩ := bind_eq_ok.1 h
    obtain ⟨b, h3, h4⟩ := bind_eq_ok.1 h2
    simp at h4
    rw [← h4.2]
    exact (slice_len h1).1

theorem eachCompLoop_congr {σ : Type} {path : Bytes} {f g : σ → Bytes → Bytes → Res σ}
    (h : ∀ st k p, p.length ≤ path.length → f st k p = g st k p) :
    ∀ (n i : Nat) (c : Option Nat) (s : Nat) (st : σ),
      eachCompLoop path f n i c s st = eachCompLoop path g n i c s st
  | 0, _, _, _, _ => rfl
  | n + 1, i, c, s, st => by
    unfold eachCompLoop
    have hcomp : ∀ (k : σ → Res σ), (compAt path s i c >>= fun x => f st x.1 x.2 >>= k) =
        (compAt path s i c >>= fun x => g st x.1 x.2 >>= k) := by
      intro k
      cases hx : compAt path s i c with
      | error e => rfl
      | ok x =>
        obtain ⟨a, b⟩ := x
        simp only [ok_bind]
        rw [h st a b (compAt_len hx)]
    have hcomp0 : (compAt path s i c >>= fun x => f st x.1 x.2) =
        (compAt path s i c >>= fun x => g st x.1 x.2) := by
      cases hx : compAt path s i c with
      | error e => rfl
      | ok x =>
        obtain ⟨a, b⟩ := x
        simp only [ok_bind]
        rw [h st a b (compAt_len hx)]
    split
    · exact hcomp0
    · cases idx path i with
      | error e => rfl
      | ok ch =>
        simp only [ok_bind]
        split
        · split
          · rfl
          · exact eachCompLoop_congr h n _ _ _ _
        split
        · simp only [eachCompLoop_congr h n]
        split
        · simp only [eachCompLoop_congr h n]
          exact hcomp (fun st => eachCompLoop path g n (i + 1) none (i + 1) st)
        split
        · exact eachCompLoop_congr h n _ _ _ _
        · exact eachCompLoop_congr h n _ _ _ _

theorem eachComp_congr {σ : Type} {path : Bytes} {f g : σ → Bytes → Bytes → Res σ}
    (h : ∀ st k p, p.length < path.length → f st k p = g st k p) (st : σ) :
    eachComp path f st = eachComp path g st := by
  unfold eachComp
  split
  · rfl
  · rename_i h0
    cases hx : slice path 1 (path.length - 1) with
    | error e => rfl
    | ok x =>
      simp only [ok_bind]
      have := slice_len hx
      exact eachCompLoop_congr (fun st k p hp => h st k p (by omega)) _ _ _ _ _

theorem multiExec_congr {n : Nat} {rec rec' : GetFn} (ha : Agree n rec rec') (json : Bytes) {path : Path}
    (hp : path.comp.length ≤ n) : multiExec rec json path = multiExec rec' json path := by
  have h1 : execArr rec json path = execArr rec' json path := by
    unfold execArr
    rw [eachComp_congr (path := path.comp) (f := fun (st : Bytes × Nat) _ p => do
      let res ← rec json p
      .ok (pushValue st res)) (g := fun (st : Bytes × Nat) _ p => do
      let res ← rec' json p
      .ok (pushValue st res)) (by intro st k p hl; simp only [ha.short json p (by omega)])]
  have h2 : execObj rec json path = execObj rec' json path := by
    unfold execObj
    rw [eachComp_congr (path := path.comp) (f := fun (st : Bytes × Nat) key p => do
      let res ← rec json p
      .ok (pushMember st key res)) (g := fun (st : Bytes × Nat) key p => do
      let res ← rec' json p
      .ok (pushMember st key res)) (by intro st k p hl; simp only [ha.short json p (by omega)])]
  unfold multiExec
  rw [h1, h2]

/-! ### The remaining path -/

theorem gArrVals_path {rec : GetFn} {path : Path} {vals : List Value} {v : Value} {p : Path}
    (h : gArrVals rec path vals = .ok (v, p)) : p = path ∨ (path.sep = c! '.' ∧ p = (pGroup path).2) := by
  have hg : p = (pGroup path).2 → p = path ∨ (path.sep = c! '.' ∧ p = (pGroup path).2) := by
    intro hp
    by_cases hs : path.sep = c! '.'
    · exact .inr ⟨hs, hp⟩
    · rw [pGroup_no path hs] at hp; exact .inl hp
  unfold gArrVals at h
  simp only at h
  split at h
  · simp at h; exact .inl h.2.symm
  · split at h
    · split at h
      · split at h
        · obtain ⟨l, _, h2⟩ := bind_eq_ok.1 h
          simp at h2; exact hg h2.2.symm
        · simp at h; exact .inl h.2.symm
      · split at h
        · obtain ⟨l, _, h2⟩ := bind_eq_ok.1 h
          simp at h2; exact hg h2.2.symm
        · obtain ⟨l, _, h2⟩ := bind_eq_ok.1 h
          simp at h2; exact .inl h2.2.symm
    · simp at h; exact .inl h.2.symm

/-- The path that remains after a search. -/
def Rest (n : Nat) (p : Path) : Prop := p.sep ≠ 0 → p.extra.length < n

theorem gArr_rest {n : Nat} {rec : GetFn} {path : Path} (hp : Sized n path) {L : Nat} {lines : Bool} {s : Bytes}
    {v : Value} {p : Path} (h : gArr rec L lines path s = .ok (v, p)) : Rest n p := by
  rcases gArrVals_path h with rfl | ⟨hs, rfl⟩
  · exact hp.extra
  · intro h0
    have := (pGroup_ok path hs).lt h0
    have := hp.extra (by rw [hs]; decide)
    omega

/-- Every result of `get_obj`'s loop is a value met at this level or comes from a
nested search. -/
theorem gObjLoop_ind {dive : Bytes → Res (Value × Path)} {L : Nat} {path : Path} {P : Value × Path → Prop}
    (h0 : P (Value.default, path))
    (h1 : path.dives = false → ∀ i s, P (tokVal i (leafTok s).1, path))
    (h1' : ∀ i c r, ¬ (c = c! '{' ∨ c = c! '[') → P (tokVal i (leafTok (c :: r)).1, path))
    (h2 : ∀ s x, dive s = .ok x → path.dives = true → P x) :
    ∀ (s : Bytes) (x : Value × Path), gObjLoop dive L path s = .ok x → P x := by
  intro s
  generalize hn : s.length = n
  induction n using Nat.strongRecOn generalizing s with
  | ind n ih =>
    intro x hx
    cases s with
    | nil => rw [gObjLoop_nil] at hx; cases hx; exact h0
    | cons c r =>
      by_cases c1 : c = c! '}'
      · rw [c1, gObjLoop_close] at hx; cases hx; exact h0
      by_cases c2 : c = c! '"'
      · subst c2
        cases hq : qStr r with
        | none => rw [gObjLoop_nokey _ _ _ hq] at hx; cases hx; exact h0
        | some y =>
          obtain ⟨b, f, q⟩ := y
          cases hv : pSkipColon q with
          | nil => rw [gObjLoop_noval _ _ _ hq hv] at hx; cases hx; exact h0
          | cons c3 r3 =>
            rw [gObjLoop_key _ _ _ hq hv] at hx
            have l1 := qStr_lt hq
            have l2 := pSkipColon_le q
            rw [hv] at l2
            have l3 := leafTok_lt (s := c3 :: r3) (by simp)
            simp only [List.length_cons] at hn l2 l3
            have next := ih (leafTok (c3 :: r3)).2.length (by omega) _ rfl
            split at hx
            · split at hx
              · rename_i hdv
                obtain ⟨⟨res, p⟩, g1, g2⟩ := bind_eq_ok.1 hx
                simp only at g2
                split at g2
                · cases g2; exact h2 _ _ g1 hdv.1
                · exact ih (c3 :: r3).length (by simp only [List.length_cons]; omega) _ rfl _ g2
              · rename_i hdv
                split at hx
                · cases hx
                  by_cases hcc : c3 = c! '{' ∨ c3 = c! '['
                  · refine h1 ?_ _ _
                    cases hd : path.dives
                    · rfl
                    · exact absurd ⟨hd, hcc⟩ hdv
                  · exact h1' _ _ _ hcc
                · exact next x hx
            · exact next x hx
      · rw [gObjLoop_skip _ _ _ _ c1 c2] at hx
        exact ih r.length (by simp at hn; omega) r rfl x hx

theorem gObj_rest {n : Nat} {rec : GetFn} {L : Nat} : ∀ (k : Nat) {path : Path}, pathRank path < k → Sized n path →
    ∀ {s : Bytes} {x : Value × Path}, gObj rec L path s = .ok x → Rest n x.2
  | 0, _, h, _, _, _, _ => by omega
  | k + 1, path, hk, hp, s, x, h => by
    rw [gObj.eq_def] at h
    cases s with
    | nil => simp at h; rw [← h]; exact hp.extra
    | cons c r =>
      simp only at h
      split at h
      · simp at h; rw [← h]; exact hp.extra
      · refine gObjLoop_ind (P := fun x => Rest n x.2) hp.extra (fun _ _ _ => hp.extra) (fun _ _ _ _ => hp.extra) ?_ r x h
        intro v y hy hd
        rw [dif_pos hd] at hy
        have := pathRank_next hd
        split at hy
        · exact gObj_rest k (by omega) (hp.next hd) hy
        · obtain ⟨v', p'⟩ := y
          exact gArr_rest (hp.next hd) hy

theorem gStart_rest {n : Nat} {rec : GetFn} {L : Nat} {path : Path} (hp : Sized n path) : ∀ {s : Bytes} {x : Value × Path},
    gStart rec L path s = .ok x → Rest n x.2
  | [], x, h => by simp [gStart] at h; rw [← h]; exact hp.extra
  | c :: r, x, h => by
    unfold gStart at h
    split at h
    · exact gStart_rest hp h
    split at h
    · exact gObj_rest _ (Nat.lt_succ_self _) hp h
    split at h
    · obtain ⟨v, p⟩ := x; exact gArr_rest hp h
    · simp at h; rw [← h]; exact hp.extra

theorem modExec_path {rec : GetFn} {json : Bytes} {path : Path} {x : Value × Path}
    (h : modExec rec json path = .ok x) : x.2 = path := by
  unfold modExec at h
  simp only at h
  split at h
  all_goals
    simp only [bind_eq_ok] at h
    grind

theorem multiExec_path {rec : GetFn} {json : Bytes} {path : Path} {x : Value × Path}
    (h : multiExec rec json path = .ok x) : x.2 = path ∨ x.2 = Path.empty := by
  unfold multiExec execArr execObj at h
  simp only [bind_eq_ok] at h
  obtain ⟨a, _, h⟩ := h
  split at h
  all_goals
    simp only [bind_eq_ok] at h
    obtain ⟨b, _, h⟩ := h
    split at h
    · simp at h; right; rw [← h]
    · simp only [bind_eq_ok] at h
      grind

theorem linesPrefix_suffix (path : Bytes) : (linesPrefix path).1 <:+ path := by
  unfold linesPrefix
  split
  · split
    · exact ⟨[_, _], rfl⟩
    · exact List.suffix_refl _
  · exact List.suffix_refl _

theorem getFirst_rest {rec : GetFn} {json path : Bytes} {x : Value × Path}
    (h : getFirst rec json path = .ok x) : Rest path.length x.2 := by
  rw [getFirst_eq] at h
  simp only at h
  have hs : Sized path.length (pNext (linesPrefix path).1) := (pNext_ok _).sized (linesPrefix_suffix path).length_le
  split at h
  · obtain ⟨v, p⟩ := x; exact gArr_rest hs h
  split at h
  · rw [modExec_path h]; exact hs.extra
  split at h
  · rcases multiExec_path h with h1 | h1
    · rw [h1]; exact hs.extra
    · rw [h1]; intro h0; simp [Path.empty] at h0
  · exact gStart_rest hs h

theorem getFirst_congr {rec rec' : GetFn} {path : Bytes} (ha : Agree path.length rec rec') (json : Bytes) :
    getFirst rec json path = getFirst rec' json path := by
  rw [getFirst_eq, getFirst_eq]
  simp only
  have hl := (linesPrefix_suffix path).length_le
  have hs : Sized path.length (pNext (linesPrefix path).1) := (pNext_ok _).sized hl
  have hc := (pNext_ok (linesPrefix path).1).comp.length_le
  rw [gArr_congr ha hs, modExec_congr ha.opts, multiExec_congr ha json (Nat.le_trans hc hl), gStart_congr ha hs]

theorem getBody_congr {rec rec' : GetFn} {path : Bytes} (ha : Agree path.length rec rec') (json : Bytes) :
    getBody rec json path = getBody rec' json path := by
  unfold getBody
  rw [getFirst_congr ha]
  cases hx : getFirst rec' json path with
  | error e => rfl
  | ok x =>
    simp only [ok_bind]
    split
    · rfl
    · rename_i hm
      have := getFirst_rest hx (by unfold Path.more at hm; simpa using hm)
      exact getIn_congr (fun json => ha.short json _ this) _

/-- Looking up a single plain component involves no recursion. -/
theorem getBody_single {path : Bytes} (key : linesPrefix path = (path, false) ∧ pathNext path = .ok ⟨path, false, false, 0, 0, []⟩ ∧
      path.head? ≠ some c! '@' ∧ path.head? ≠ some c! '#' ∧ path.head? ≠ some c! '{' ∧ path.head? ≠ some c! '[')
    (rec rec' : GetFn) (json : Bytes) : getBody rec json path = getBody rec' json path := by
  obtain ⟨h1, h2, h3, h4, h5, h6⟩ := key
  have h7 : pNext path = ⟨path, false, false, 0, 0, []⟩ := by unfold pNext; rw [h2]
  have hp : Sized 0 (⟨path, false, false, 0, 0, []⟩ : Path) := ⟨fun h => absurd h h4, fun h => absurd rfl h⟩
  have hm : (⟨path, false, false, 0, 0, []⟩ : Path).isModifier = false := by
    unfold Path.isModifier; cases path <;> simp_all
  have hmp : (⟨path, false, false, 0, 0, []⟩ : Path).isMultipath = false := by
    unfold Path.isMultipath; cases path <;> simp_all
  -- without diving, `rec` is not used
  have hstart : ∀ L s, gStart rec L ⟨path, false, false, 0, 0, []⟩ s = gStart rec' L ⟨path, false, false, 0, 0, []⟩ s := by
    intro L
    have hobj : ∀ s, gObj rec L ⟨path, false, false, 0, 0, []⟩ s = gObj rec' L ⟨path, false, false, 0, 0, []⟩ s := by
      intro s
      rw [gObj.eq_def, gObj.eq_def rec']
      have : (⟨path, false, false, 0, 0, []⟩ : Path).dives = false := by unfold Path.dives; simp
      simp only [this]
      rfl
    have harr : ∀ s, gArr rec L false ⟨path, false, false, 0, 0, []⟩ s = gArr rec' L false ⟨path, false, false, 0, 0, []⟩ s := by
      intro s
      unfold gArr gArrVals
      cases path with
      | nil => rfl
      | cons c t =>
        have hc : ¬ c = c! '#' := by simpa using h4
        simp only [hc, if_false]
    intro s
    induction s with
    | nil => rfl
    | cons c r ih => unfold gStart; rw [ih, hobj, harr]
  have hrest : ∀ x, gStart rec' json.length ⟨path, false, false, 0, 0, []⟩ json = .ok x → Rest 0 x.2 :=
    fun x h => gStart_rest hp h
  unfold getBody
  rw [getFirst_eq, getFirst_eq, h1]
  simp only [h7, hm, hmp, hstart]
  cases hx : gStart rec' json.length ⟨path, false, false, 0, 0, []⟩ json with
  | error e => rfl
  | ok x =>
    have := hrest x hx
    have hs : x.2.sep = 0 := by
      by_cases h0 : x.2.sep = 0
      · exact h0
      · have := this h0; omega
    simp [Path.more, hs]

theorem optionNames_single : ∀ path ∈ optionNames, linesPrefix path = (path, false) ∧ pathNext path = .ok ⟨path, false, false, 0, 0, []⟩ ∧
      path.head? ≠ some c! '@' ∧ path.head? ≠ some c! '#' ∧ path.head? ≠ some c! '{' ∧ path.head? ≠ some c! '[' := by
  decide

/-- Looking up an option name involves no recursion. -/
theorem getBody_option {path : Bytes} (h : path ∈ optionNames) (rec rec' : GetFn) (json : Bytes) :
    getBody rec json path = getBody rec' json path :=
  getBody_single (optionNames_single path h) rec rec' json

theorem getN_stable : ∀ (n : Nat) (json path : Bytes), path.length + 2 ≤ n →
    getN (n + 1) json path = getN n json path
  | 0, _, _, h => by omega
  | n + 1, json, path, h => by
    show getBody (getN (n + 1)) json path = getBody (getN n) json path
    refine getBody_congr ⟨fun json p hp => getN_stable n json p (by omega), fun json p hp => ?_⟩ json
    cases n with
    | zero => omega
    | succ n => exact getBody_option hp _ _ _

theorem getN_eq {n : Nat} {json path : Bytes} (h : path.length + 2 ≤ n) : getN n json path = get json path := by
  unfold get
  induction n with
  | zero => omega
  | succ n ih =>
    by_cases h2 : path.length + 2 = n + 1
    · rw [h2]
    · rw [getN_stable n json path (by omega)]; exact ih (by omega)

theorem getN_option {n : Nat} {json path : Bytes} (hp : path ∈ optionNames) : getN (n + 1) json path = get json path :=
  getBody_option hp _ _ _

/-- `get` satisfies the equation of the Rust source. -/
theorem get_eq (json path : Bytes) : get json path = getBody get json path := by
  show getBody (getN (path.length + 1)) json path = getBody get json path
  refine getBody_congr ⟨fun json p hp => getN_eq (by omega), fun json p hp => getN_option hp⟩ json

end Gjson
