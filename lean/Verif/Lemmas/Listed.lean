import Verif.Lemmas.Handed
import Verif.Lemmas.Parts
import Verif.Lemmas.Place
import Verif.Lemmas.Lead
import Verif.Lemmas.Ink
/-
Array values, of any text: looking up in one is looking up in what `array` returns.
-/
namespace Gjson
open Spec

/-- An array value begins with a bracket, or does not exist (one that is not closed). -/
def Headed (v : Value) : Prop := v.exists = true → v.kind = .array → ∃ q, v.json = c! '[' :: q

theorem Headed.same {v w : Value} (h : SameValue v w) (hw : Headed w) : Headed v := by
  intro he hk
  rw [h.kind] at hk
  rw [h.json]
  exact hw (by unfold Value.exists at he ⊢; rwa [h.json] at he) hk

theorem default_headed : Headed Value.default := fun h _ => absurd h (by decide)

theorem tok_headed (i : Nat) (s : Bytes) : Headed (tokVal i (leafTok s).1) := by
  intro he hk
  cases s with
  | nil => exact absurd hk (by simp [leafTok, tokVal]; decide)
  | cons c r =>
    rw [leafTok.eq_def] at he hk ⊢
    simp only at he hk ⊢
    split at hk
    · exfalso
      cases hq : qStr r with
      | none => rw [hq] at hk; exact absurd hk (by simp [tokVal]; decide)
      | some x =>
        obtain ⟨b, f, q⟩ := x
        rw [hq] at hk
        simp only [tokVal] at hk
        rw [mkVal_kind, (escBit_str f).2.2] at hk
        cases hk
    rename_i hc
    rw [if_neg hc] at he ⊢
    split at hk
    · rename_i hc2
      rw [if_pos hc2] at he ⊢
      cases hs : sq 1 false r with
      | none => rw [hs] at he; simp [tokVal] at he
      | some z =>
        rw [hs] at hk
        simp only [tokVal] at hk ⊢
        rw [mkVal_kind] at hk
        rw [mkVal_json]
        rcases hc2 with h | h <;> rw [h] at hk ⊢ <;> first | exact ⟨_, rfl⟩ | exact absurd hk (by decide)
    exfalso
    split at hk
    · simp only [tokVal] at hk
      rw [mkVal_kind, kind_numFlags (numFlags_mem (signBit_mem c))] at hk
      cases hk
    split at hk
    · split at hk
      · exact absurd hk (by simp [tokVal]; decide)
      · simp only [tokVal] at hk; rw [mkVal_kind] at hk; exact absurd hk (by decide)
    split at hk
    · split at hk
      · exact absurd hk (by simp [tokVal]; decide)
      · simp only [tokVal] at hk; rw [mkVal_kind] at hk; exact absurd hk (by decide)
    split at hk
    · split at hk
      · exact absurd hk (by simp [tokVal]; decide)
      · simp only [tokVal] at hk; rw [mkVal_kind] at hk; exact absurd hk (by decide)
    · exact absurd hk (by simp [tokVal]; decide)

theorem pParse_headed : ∀ (s : Bytes) (i : Nat), Headed (pParse i s)
  | [], i => by unfold pParse; exact default_headed
  | c :: r, i => by
    unfold pParse
    split
    · exact pParse_headed _ _
    split
    · intro _ hk; rw [mkVal_kind] at hk; exact absurd hk (by decide)
    split
    · rename_i hc
      intro _ _; rw [mkVal_json, hc]; exact ⟨_, rfl⟩
    split
    · exact tok_headed _ _
    · exact default_headed

theorem Prov.headed {v : Value} (hp : Prov v) : Headed v := by
  induction hp with
  | default => exact default_headed
  | tok i s => exact tok_headed _ _
  | array b => intro _ _; rw [mkOwned_json]; exact ⟨_, rfl⟩
  | object b => intro _ hk; rw [mkOwned_kind] at hk; exact absurd hk (by decide)
  | count n => intro _ hk; rw [mkOwned_kind] at hk; exact absurd hk (by decide)
  | modifier i s => exact pParse_headed _ _
  | owned hp ih => exact ih.same (sameValue_owned hp.oneText)
  | moved _ hp ih => exact ih.same (sameValue_addIndex _ _)

theorem toks_headed (i : Nat) (s : Bytes) : ∀ v ∈ toks i s, Headed v := fun v hv => (toks_prov i s v hv).headed

theorem getIn_sameJson {v w : Value} {p : Bytes} (ho : OneText v) (h : v.get p = .ok w) :
    ∃ u, get v.json p = .ok u ∧ SameValue w u := by
  have h1 := getIn_same ho p
  rw [show getIn get v p = .ok w from h] at h1
  generalize hg : get v.json p = r at h1
  cases h1 with | ok h => exact ⟨_, rfl, h⟩

theorem each_headed {v : Value} {l : List (Value × Value)}
    (h : v.each (fun acc k x => .ok (acc ++ [(k, x)], true)) [] = .ok l) : ∀ p ∈ l, Headed p.1 ∧ Headed p.2 := by
  cases hj : v.json with
  | nil =>
    have : v.exists = false := by unfold Value.exists; rw [hj]; rfl
    unfold Value.each at h
    rw [this] at h
    simp at h; subst h; simp
  | cons c q =>
    by_cases hk : v.kind = .object ∨ v.kind = .array
    · rw [each_eq hj hk, visit_collect_pairs] at h
      cases h
      intro p hp
      rw [List.nil_append] at hp
      unfold eachPairs at hp
      split at hp
      · have := pairUp_both _ hp
        exact ⟨toks_headed _ _ _ this.1, toks_headed _ _ _ this.2⟩
      · obtain ⟨x, hx, rfl⟩ := List.mem_map.1 hp
        exact ⟨default_headed, toks_headed _ _ _ hx⟩
    · unfold Value.each at h
      rw [if_neg (by rw [show v.exists = true from exists_json.2 (by rw [hj]; simp)]; simp), if_pos (by grind)] at h
      cases h
      intro p hp
      simp at hp; subst hp
      refine ⟨default_headed, fun _ h => absurd h (fun h => hk (.inr h))⟩

/-- Every array value begins with a bracket if it exists. -/
theorem Handed.headed {v : Value} (h : Handed v) : Headed v := by
  induction h with
  | parse h => rw [parse_eq] at h; cases h; exact pParse_headed _ _
  | get h => exact (get_prov h).headed
  | value hv h _ =>
    obtain ⟨u, h1, h2⟩ := getIn_sameJson hv.oneText h
    exact (get_prov h1).headed.same h2
  | @element v e vals hv h he _ =>
    by_cases hk : v.kind = .array
    · cases hj : v.json with
      | nil =>
        have : v.exists = false := by unfold Value.exists; rw [hj]; rfl
        unfold Value.array Value.each at h
        rw [if_pos hk, this] at h
        simp at h; subst h; simp at he
      | cons c q =>
        rw [array_eq hj hk] at h
        cases h
        exact toks_headed _ _ _ he
    · unfold Value.array at h
      rw [if_neg hk] at h; cases h; simp at he
  | key hv h he _ => exact (each_headed h _ he).1
  | entry hv h he _ => exact (each_headed h _ he).2

/-- Searching an array value is searching its elements. -/
theorem Handed.listed {v : Value} (h : Handed v) (he : v.exists = true) (hk : v.kind = .array) :
    ∃ vals, v.array = .ok vals ∧ (∀ x ∈ vals, OneText x ∧ x.exists = true ∧ x.json = x.slice) ∧
      ∀ {path}, LooksUp path → SameRes (v.get path) (gArrVals Gjson.get (pNext path) vals >>= finish) := by
  obtain ⟨q, hq⟩ := h.headed he hk
  have e0 : eachToks 0 false (c! '[' :: q) = toks 1 q := by simp [eachToks]
  refine ⟨toks 1 q, array_eq hq hk, fun x hx => ?_, fun {path} hp => ?_⟩
  · exact ⟨toks_oneText _ _ _ hx, eachToks_exist 0 false (c! '[' :: q) x (by rw [e0]; exact hx)⟩
  · refine (getIn_same h.oneText path).trans ?_
    rw [hq, get_looksUp hp, gStart, if_neg (by decide), if_neg (by decide), if_pos rfl, gArr, Nat.sub_self, e0]
    exact .refl _

/-! ### Multipaths -/

theorem compAt_infix {path k p : Bytes} {s i : Nat} {c : Option Nat} (h : compAt path s i c = .ok (k, p)) : p <:+: path := by
  unfold compAt at h
  split at h
  · obtain ⟨a, h1, h2⟩ := bind_eq_ok.1 h
    obtain ⟨b, h3, h4⟩ := bind_eq_ok.1 h2
    simp at h4
    rw [← h4.2]
    exact slice_infix h3
  · obtain ⟨a, h1, h2⟩ := bind_eq_ok.1 h
    obtain ⟨b, h3, h4⟩ := bind_eq_ok.1 h2
    simp at h4
    rw [← h4.2]
    exact slice_infix h1

theorem eachCompLoop_within {σ : Type} {path : Bytes} {f g : σ → Bytes → Bytes → Res σ}
    (h : ∀ st k p, p <:+: path → f st k p = g st k p) :
    ∀ (n i : Nat) (c : Option Nat) (s : Nat) (st : σ),
      eachCompLoop path f n i c s st = eachCompLoop path g n i c s st
  | 0, _, _, _, _ => rfl
  | n + 1, i, c, s, st => by
    unfold eachCompLoop
    have hcomp : ∀ (k : σ → Res σ), (compAt path s i c >>= fun x => f st x.1 x.2 >>= k) =
        (compAt path s i c >>= fun x => g st x.1 x.2 >>= k) := by
      intro k
      cases hx : compAt path s i c with
      | error e => rfl
      | ok x =>
        obtain ⟨a, b⟩ := x
        simp only [ok_bind]
        rw [h st a b (compAt_infix hx)]
    have hcomp0 : (compAt path s i c >>= fun x => f st x.1 x.2) =
        (compAt path s i c >>= fun x => g st x.1 x.2) := by
      cases hx : compAt path s i c with
      | error e => rfl
      | ok x =>
        obtain ⟨a, b⟩ := x
        simp only [ok_bind]
        rw [h st a b (compAt_infix hx)]
    split
    · exact hcomp0
    · cases idx path i with
      | error e => rfl
      | ok ch =>
        simp only [ok_bind]
        split
        · split
          · rfl
          · exact eachCompLoop_within h n _ _ _ _
        split
        · simp only [eachCompLoop_within h n]
        split
        · simp only [eachCompLoop_within h n]
          exact hcomp (fun st => eachCompLoop path g n (i + 1) none (i + 1) st)
        split
        · exact eachCompLoop_within h n _ _ _ _
        · exact eachCompLoop_within h n _ _ _ _

theorem eachComp_within {σ : Type} {path : Bytes} {f g : σ → Bytes → Bytes → Res σ}
    (h : ∀ st k p, p.length < path.length → p <:+: path → f st k p = g st k p) (st : σ) :
    eachComp path f st = eachComp path g st := by
  unfold eachComp
  split
  · rfl
  · rename_i h0
    cases hx : slice path 1 (path.length - 1) with
    | error e => rfl
    | ok x =>
      simp only [ok_bind]
      have h1 := slice_len hx
      have h2 := slice_infix hx
      exact eachCompLoop_within (fun st k p hp => h st k p (by have := hp.length_le; omega) (hp.trans h2)) _ _ _ _ _

/-- A multipath depends only on what the paths in it find. -/
theorem multiExec_within {a b : Bytes} {p : Path}
    (h : ∀ q : Bytes, q.length < p.comp.length → q <:+: p.comp → SameRes (get a q) (get b q)) :
    multiExec get a p = multiExec get b p := by
  have h1 : execArr get a p = execArr get b p := by
    unfold execArr
    rw [eachComp_within (path := p.comp) (f := fun (st : Bytes × Nat) _ q => do
      let res ← get a q
      .ok (pushValue st res)) (g := fun (st : Bytes × Nat) _ q => do
      let res ← get b q
      .ok (pushValue st res)) (by intro st k q hl hi; exact same_push (h q hl hi) fun v w => pushValue_same st)]
  have h2 : execObj get a p = execObj get b p := by
    unfold execObj
    rw [eachComp_within (path := p.comp) (f := fun (st : Bytes × Nat) key q => do
      let res ← get a q
      .ok (pushMember st key res)) (g := fun (st : Bytes × Nat) key q => do
      let res ← get b q
      .ok (pushMember st key res)) (by intro st k q hl hi; exact same_push (h q hl hi) fun v w => pushMember_same st k)]
  unfold multiExec
  rw [h1, h2]

theorem get_first_same {a b p1 p2 : Bytes} (h : RelRes SameX (getFirst get a p1) (getFirst get b p2)) :
    SameRes (get a p1) (get b p2) := by
  rw [get_eq, get_eq, getBody, getBody]
  cases h1 : getFirst get a p1 with
  | error e =>
    rw [h1] at h
    cases h2 : getFirst get b p2 with
    | error e' => rw [h2] at h; cases h; exact .error _
    | ok y => rw [h2] at h; cases h
  | ok x =>
    rw [h1] at h
    cases h2 : getFirst get b p2 with
    | error e' => rw [h2] at h; cases h
    | ok y =>
      rw [h2] at h
      cases h with
      | ok hxy => exact finish_same (getFirst_prov h1).oneText (getFirst_prov h2).oneText hxy

/-- Two arrays with the same elements: what the first component of a path gives. -/
theorem gStart_listed {q r : Bytes} (h : Aligned SameValue (toks 1 q) (toks 1 r)) (p : Path) (L1 L2 : Nat)
    (h1 : L1 = (c! '[' :: q).length) (h2 : L2 = (c! '[' :: r).length) :
    RelRes SameX (gStart get L1 p (c! '[' :: q)) (gStart get L2 p (c! '[' :: r)) := by
  have e0 : ∀ q, eachToks 0 false (c! '[' :: q) = toks 1 q := fun q => by simp [eachToks]
  subst h1; subst h2
  rw [gStart, if_neg (by decide), if_neg (by decide), if_pos rfl, gArr, Nat.sub_self, e0]
  rw [gStart, if_neg (by decide), if_neg (by decide), if_pos rfl, gArr, Nat.sub_self, e0]
  exact gArrVals_alike p (aligned_alike_prov h (toks_oneText _ _) (toks_oneText _ _))

/-- Two arrays with the same elements cannot be told apart by paths without modifiers. -/
theorem get_listed {q r : Bytes} (h : Aligned SameValue (toks 1 q) (toks 1 r)) (path : Bytes)
    (hm : c! '@' ∉ path) (hl : ¬ b!".." <:+: path) : SameRes (get (c! '[' :: q) path) (get (c! '[' :: r) path) := by
  generalize hn : path.length = n
  induction n using Nat.strongRecOn generalizing path with
  | ind n ih =>
    refine get_first_same ?_
    have e : linesPrefix path = (path, false) := by
      unfold linesPrefix
      split
      · rename_i a b rest
        rw [if_neg]
        rintro ⟨rfl, rfl⟩
        exact hl ⟨[], rest, rfl⟩
      · rfl
    have hc := (pNext_ok path).comp
    rw [getFirst_eq, getFirst_eq, e]
    simp only [Bool.false_eq_true, if_false]
    split
    · rename_i hmod
      exfalso
      unfold Path.isModifier at hmod
      split at hmod
      · cases hmod
      · rename_i c t hct
        simp at hmod
        subst hmod
        rw [hct] at hc
        exact hm (hc.subset (by simp))
    split
    · have h2 := hc.length_le
      rw [multiExec_within fun p hp hi => ih p.length (by omega) p (fun hx => hm (hc.isInfix.subset (hi.subset hx)))
        (fun hx => hl (hx.trans (hi.trans hc.isInfix))) rfl]
      cases multiExec get (c! '[' :: r) (pNext path) with
      | error e => exact .error e
      | ok x => exact .ok (sameX_refl _)
    · exact gStart_listed h _ _ _ rfl rfl

end Gjson
