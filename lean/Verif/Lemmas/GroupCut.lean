import Verif.Lemmas.QueryCut
import Verif.Lemmas.Parts
/-
`next_group` by the rules of `GroupOf`, and arrays with paths of any kind.
-/
namespace Gjson
open Spec

theorem afterComp_text {t rest : Bytes} {sep : UInt8} (h : AfterComp t sep rest) : sep ≠ 0 → t = sep :: rest := by
  cases h with
  | nothing => exact fun h => absurd rfl h
  | sep _ => exact fun _ => rfl

/-- The component is the start of the path, and the rest follows the separator. -/
theorem cutUp_comp {path : Bytes} {q : Parts} (h : CutUp path q) : q.comp <+: path ∧ (q.sep ≠ 0 → path = q.comp ++ q.sep :: q.rest) := by
  cases h with
  | key _ _ ht => exact ⟨⟨_, rfl⟩, fun h => by rw [afterComp_text ht h]⟩
  | keyBackslash => exact ⟨⟨[], by simp⟩, fun h => absurd rfl h⟩
  | count ht => exact ⟨⟨_, rfl⟩, fun h => by rw [afterComp_text ht h]; rfl⟩
  | query _ _ ht => exact ⟨⟨_, rfl⟩, fun h => by rw [afterComp_text ht h]⟩
  | queryOpen => exact ⟨⟨[], by simp⟩, fun h => absurd rfl h⟩
  | badHash => exact ⟨⟨_, rfl⟩, fun h => absurd rfl h⟩
  | badClose => exact ⟨⟨_, rfl⟩, fun h => absurd rfl h⟩
  | badAfter => exact ⟨⟨_, rfl⟩, fun h => absurd rfl h⟩
  | badOpen => exact ⟨⟨_, rfl⟩, fun h => absurd rfl h⟩
  | multi _ _ ht => exact ⟨⟨_, rfl⟩, fun h => by rw [afterComp_text ht h]⟩
  | multiMore => exact ⟨⟨_, rfl⟩, fun h => absurd rfl h⟩
  | multiOpen => exact ⟨⟨[], by simp⟩, fun h => absurd rfl h⟩
  | modifier _ ht => exact ⟨⟨_, rfl⟩, fun h => by rw [afterComp_text ht h]; rfl⟩
  | modifierBackslash => exact ⟨⟨[], by simp⟩, fun h => absurd rfl h⟩
  | @argument k a t _ _ _ _ _ _ _ ht => exact ⟨⟨t, by simp⟩, fun h => by rw [afterComp_text ht h]; simp⟩
  | @argumentJson k g t _ _ _ _ _ _ _ ht => exact ⟨⟨t, by simp⟩, fun h => by rw [afterComp_text ht h]; simp⟩
  | argumentMore => exact ⟨⟨[], by simp⟩, fun h => absurd rfl h⟩
  | argumentOpen => exact ⟨⟨[], by simp⟩, fun h => absurd rfl h⟩

theorem groupOf_prefix {s g r : Bytes} {sep : UInt8} (h : GroupOf s g sep r) : g <+: s := by
  induction h with
  | last hc _ => exact (cutUp_comp hc).1
  | more hc _ ih =>
    obtain ⟨t, ht⟩ := ih
    have := (cutUp_comp hc).2 (by simp)
    simp only at this
    exact ⟨t, by rw [this, ← ht]; simp⟩

theorem groupOf_exists : ∀ (n : Nat) (s : Bytes), s.length ≤ n → ∃ g sep r, GroupOf s g sep r := by
  intro n
  induction n with
  | zero =>
    intro s h
    obtain ⟨q, hq⟩ := cutUp_total s
    by_cases hs : q.sep = c! '.'
    · have := (cutUp_comp hq).2 (by rw [hs]; decide)
      rw [this] at h
      simp at h
    · exact ⟨_, _, _, .last hq hs⟩
  | succ n ih =>
    intro s h
    obtain ⟨⟨k, e, w, sep, m, rest⟩, hq⟩ := cutUp_total s
    by_cases hs : sep = c! '.'
    · subst hs
      have := (cutUp_comp hq).2 (by simp)
      simp only at this
      rw [this] at h
      obtain ⟨g, s', r, hg⟩ := ih rest (by simp at h; omega)
      exact ⟨_, _, _, .more hq hg⟩
    · exact ⟨_, _, _, .last hq hs⟩

theorem nextGroupLoop_group {s g r : Bytes} {sep : UInt8} (h : GroupOf s g sep r) :
    ∀ {n L : Nat} {p : Path}, pathNext s = .ok p → s.length < n →
      ∃ q, nextGroupLoop n (L + p.comp.length) p = .ok (L + g.length, q) ∧ q.sep = sep ∧ q.extra = r := by
  induction h with
  | @last s k rest e w sep m hc hs =>
    intro n L p hp hn
    rw [cutUp_eval hc] at hp
    cases hp
    obtain ⟨n, rfl⟩ : ∃ m, n = m + 1 := ⟨n - 1, by omega⟩
    have e : (Spec.Parts.path ⟨k, e, w, sep, m, rest⟩).sep ≠ c! '.' := hs
    rw [nextGroupLoop, if_neg e]
    exact ⟨_, rfl, rfl, rfl⟩
  | @more s k rest g r e w sep m hc hg ih =>
    intro n L p hp hn
    have hsp := (cutUp_comp hc).2 (by simp)
    simp only at hsp
    rw [cutUp_eval hc] at hp
    cases hp
    obtain ⟨n, rfl⟩ : ∃ m, n = m + 1 := ⟨n - 1, by omega⟩
    have e : (Spec.Parts.path ⟨k, e, w, c! '.', m, rest⟩).sep = c! '.' := rfl
    rw [nextGroupLoop, if_pos e]
    obtain ⟨q, h1, h2⟩ := ih (n := n) (L := L + k.length + 1) (pathNext_eq rest) (by rw [hsp] at hn; simp at hn; omega)
    refine ⟨q, ?_, h2⟩
    show (pathNext rest >>= fun r => nextGroupLoop n (L + k.length + 1 + r.comp.length) r) = _
    rw [pathNext_eq rest]
    simp only [ok_bind]
    rw [h1]
    congr 2
    simp; omega

theorem nextGroup_cut {p : Path} {g r : Bytes} {sep : UInt8} (hp : p.sep = c! '.') (h : GroupOf p.extra g sep r) :
    (pGroup p).1 = g ∧ (pGroup p).2.sep = sep ∧ (pGroup p).2.extra = r := by
  obtain ⟨q, h1, h2, h3⟩ := nextGroupLoop_group h (L := 0) (n := p.extra.length + 1) (pathNext_eq _) (by omega)
  obtain ⟨t, ht⟩ := groupOf_prefix h
  have hA : At p.extra 0 (g ++ t) := ht ▸ At.zero _
  have : p.nextGroup = .ok (g, { q with comp := [] }) := by
    unfold Path.nextGroup
    rw [if_neg (by simpa using hp), pathNext_eq]
    simp only [ok_bind]
    rw [Nat.zero_add, Nat.zero_add] at h1
    rw [h1]
    simp only [ok_bind]
    rw [hA.slice' (by simp)]
    rfl
  rw [nextGroup_eq] at this
  have := Except.ok.inj this
  rw [this]
  exact ⟨rfl, h2, h3⟩

/-! ### Arrays -/

/-- What is found with the rest of the path. -/
def goOn (w : Value) (sep : UInt8) (rest : Bytes) : Res Value := if sep = 0 then .ok w else w.get rest

theorem finish_goOn (w : Value) (p : Path) : finish (w, p) = goOn w p.sep p.extra := by
  unfold finish goOn Path.more
  by_cases h : p.sep = 0 <;> simp [h, Value.get]

theorem sequence_cut {doc pre : Bytes} {vs : List Bytes} (h : Sequence doc pre vs) :
    ∃ vals, Aligned SameAsText vals vs ∧ (∀ v ∈ vals, v.exists = true ∧ v.json = v.slice) ∧
      ∀ {path : Bytes} {q : Parts}, CutUp path q → ¬ b!".." <+: path → (∀ c ∈ q.comp.head?, c ∉ b!"@[{") →
        get doc (pre ++ path) = (gArrVals get q.path vals >>= finish) := by
  obtain ⟨vals, a1, a2, _, a3⟩ := sequence_get h
  refine ⟨vals, a1, a2, fun {path q} hc hl hk => ?_⟩
  have hn : pNext path = q.path := Except.ok.inj ((pathNext_eq path).symm.trans (cutUp_eval hc))
  have hlp : linesPrefix path = (path, false) := by
    unfold linesPrefix
    split
    · rename_i a b rest
      rw [if_neg]
      rintro ⟨rfl, rfl⟩
      exact hl ⟨rest, rfl⟩
    · rfl
  rw [a3 path hlp, hn]
  rw [hn]
  have e : q.path.comp = q.comp := rfl
  unfold Path.isModifier Path.isMultipath
  rw [e]
  cases hq : q.comp with
  | nil => exact ⟨rfl, rfl⟩
  | cons c t =>
    have := hk c (by rw [hq]; rfl)
    simp only [List.mem_cons, List.not_mem_nil, or_false, not_or] at this
    obtain ⟨h1, h2, h3⟩ := this
    exact ⟨by simp [h1], by simp [h2, h3]⟩

/-! ### Searching a result is searching its text -/

theorem oneText_get {v : Value} (h : OneText v) (p : Bytes) : SameRes (v.get p) (get v.json p) := getIn_same h p

theorem seen_get {v : Value} (h : v.exists = true ∧ v.json = v.slice) (p : Bytes) : SameRes (v.get p) (get v.json p) := by
  have hs : v.slice.length > 0 := by
    have := h.1
    unfold Value.exists at this
    rw [h.2] at this
    simpa [List.length_pos_iff] using this
  show SameRes (getIn get v p) _
  unfold getIn
  rw [if_pos hs, h.2]
  cases hg : get v.slice p with
  | error e => exact .error e
  | ok w => exact .ok (sameValue_addIndex _ _)

theorem getD_get {vals : List Value} (h : ∀ v ∈ vals, v.exists = true ∧ v.json = v.slice) (n : Nat) (p : Bytes) :
    SameRes ((vals.getD n Value.default).get p) (get (vals.getD n Value.default).json p) := by
  rw [List.getD_eq_getElem?_getD]
  cases hv : vals[n]? with
  | none => exact oneText_get default_oneText p
  | some v => exact seen_get (h v (List.mem_of_getElem? hv)) p

theorem findR_get {f : Value → Res Bool} : ∀ {vals : List Value} {x : Value}, (∀ v ∈ vals, v.exists = true ∧ v.json = v.slice) →
    findR f vals = .ok x → ∀ p, SameRes (x.get p) (get x.json p)
  | [], x, _, h, p => by
    cases h
    exact oneText_get default_oneText p
  | v :: vals, x, hv, h, p => by
    unfold findR at h
    obtain ⟨b, _, h2⟩ := bind_eq_ok.1 h
    cases b with
    | true => cases h2; exact seen_get (hv v (by simp)) p
    | false => exact findR_get (fun u hu => hv u (List.mem_cons_of_mem _ hu)) h2 p

end Gjson
