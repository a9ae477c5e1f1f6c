import Verif.Lemmas.Stable
import Verif.Lemmas.Multi
/-
Paths are only ever cut next to an ASCII byte.
-/
namespace Gjson
open Spec

/-- A place where a text may be cut: next to an ASCII byte, or at an end. -/
def Edge (a b : Bytes) : Prop := (∀ c ∈ a.getLast?, c < 0x80) ∨ (∀ c ∈ b.head?, c < 0x80)

theorem Edge.nil_left (b : Bytes) : Edge [] b := .inl (by simp)
theorem Edge.nil_right (a : Bytes) : Edge a [] := .inr (by simp)
theorem Edge.last {a : Bytes} {c : UInt8} (h : c < 0x80) (b : Bytes) : Edge (a ++ [c]) b := .inl (by simpa using h)
theorem Edge.head {b : Bytes} {c : UInt8} (h : c < 0x80) (a : Bytes) : Edge a (c :: b) := .inr (by simpa using h)

/-- `q` is what remains of `p` after cuts next to ASCII bytes. -/
inductive Cut (p : Bytes) : Bytes → Prop
  | refl : Cut p p
  | pre {a b : Bytes} : Cut p (a ++ b) → Edge a b → Cut p a
  | suf {a b : Bytes} : Cut p (a ++ b) → Edge a b → Cut p b

theorem Cut.trans {p q r : Bytes} (h1 : Cut p q) (h2 : Cut q r) : Cut p r := by
  induction h2 with
  | refl => exact h1
  | pre _ he ih => exact .pre ih he
  | suf _ he ih => exact .suf ih he

theorem Cut.infix {p q : Bytes} (h : Cut p q) : q <:+: p := by
  induction h with
  | refl => exact List.infix_refl _
  | pre _ _ ih => exact (List.prefix_append _ _).isInfix.trans ih
  | suf _ _ ih => exact (List.suffix_append _ _).isInfix.trans ih

/-- A cut at position `i`. -/
def EdgeAt (p : Bytes) (i : Nat) : Prop := Edge (p.take i) (p.drop i)

theorem EdgeAt.zero (p : Bytes) : EdgeAt p 0 := by unfold EdgeAt; simpa using Edge.nil_left p
theorem EdgeAt.end (p : Bytes) : EdgeAt p p.length := by unfold EdgeAt; simpa using Edge.nil_right p

theorem edgeAt_of {p : Bytes} {i : Nat} {c : UInt8} (h : idx p i = .ok c) (hc : c < 0x80) : EdgeAt p i ∧ EdgeAt p (i + 1) := by
  unfold idx at h
  cases hi : p[i]? with
  | none => rw [hi] at h; simp at h
  | some d =>
    rw [hi] at h
    simp at h
    subst h
    obtain ⟨hl, he⟩ := List.getElem?_eq_some_iff.1 hi
    constructor
    · right
      rw [List.drop_eq_getElem_cons hl, he]
      simpa using hc
    · left
      rw [List.take_succ_eq_append_getElem hl, he]
      simpa using hc

theorem Edge.take {a b : Bytes} (h : Edge a b) (n : Nat) : Edge a (b.take n) := by
  rcases h with h | h
  · exact .inl h
  · right
    cases n with
    | zero => simp
    | succ n => cases b <;> simp_all

theorem cut_slice {p q : Bytes} {s e : Nat} (hs : EdgeAt p s) (he : EdgeAt p e) (h : slice p s e = .ok q) : Cut p q := by
  unfold slice at h
  split at h
  · rename_i hse
    simp at h
    subst h
    unfold sub
    have h1 : Cut p (p.take e) := .pre (b := p.drop e) (by simpa using .refl) he
    have e1 : p.take s ++ (p.drop s).take (e - s) = p.take e := by
      rw [← List.drop_take]
      have : p.take s = (p.take e).take s := by rw [List.take_take]; congr 1; omega
      rw [this]; exact List.take_append_drop _ _
    rw [← e1] at h1
    exact .suf h1 (Edge.take hs _)
  · simp at h

theorem cut_sliceFrom {p q : Bytes} {s : Nat} (hs : EdgeAt p s) (h : sliceFrom p s = .ok q) : Cut p q := by
  unfold sliceFrom at h
  split at h
  · cases h
    exact .suf (a := p.take s) (by simpa using .refl) hs
  · simp at h

theorem sep_ascii {c : UInt8} (h : IsSep c) : c < 0x80 := by unfold IsSep at h; rcases h with rfl | rfl <;> decide

theorem linesPrefix_cut (path : Bytes) : Cut path (linesPrefix path).1 := by
  unfold linesPrefix
  split
  · split
    · rename_i a b r h
      refine Cut.suf (a := [a, b]) .refl ?_
      exact Edge.last (a := [a]) (by rw [h.2]; decide) _
    · exact .refl
  · exact .refl

/-! ### `path_next` -/

theorem closeTok_ascii {c : UInt8} (h : CloseTok c) : c < 0x80 := by
  unfold CloseTok at h; grind

/-- The component ends at an edge. -/
def CompEdge (extra : Bytes) (p : Path) : Prop := ∃ r, extra = p.comp ++ r ∧ Edge p.comp r

theorem compEdge_empty (extra : Bytes) : CompEdge extra Path.empty := ⟨extra, rfl, .nil_left _⟩

theorem compEdge_last {extra : Bytes} {p : Path} {c : UInt8} (h : p.comp <+: extra) (hl : p.comp.length ≠ 0)
    (hi : idx p.comp (p.comp.length - 1) = .ok c) (hc : c < 0x80) : CompEdge extra p := by
  obtain ⟨r, hr⟩ := h
  refine ⟨r, hr.symm, ?_⟩
  have := (edgeAt_of hi hc).2
  have e : p.comp.length - 1 + 1 = p.comp.length := by omega
  rw [e] at this
  unfold EdgeAt at this
  rcases this with h | h
  · left; simpa using h
  · unfold idx at hi
    left
    rcases List.eq_nil_or_concat p.comp with h0 | ⟨a, d, h0⟩
    · rw [h0] at hl; simp at hl
    · rw [h0] at hi ⊢
      simp at hi ⊢
      rw [hi]; exact hc

theorem pNext_edge (extra : Bytes) : CompEdge extra (pNext extra) := by
  have hok := pNext_ok extra
  by_cases hs : (pNext extra).sep ≠ 0
  · obtain ⟨h1, h2⟩ := hok.sep hs
    exact ⟨_, h2, .head (sep_ascii h1) _⟩
  replace hs : (pNext extra).sep = 0 := by simpa using hs
  have hp := pathNext_eq extra
  revert hok hs hp
  generalize pNext extra = p
  intro hok hs hp
  have plain : ∀ {m}, pathNextPlain extra m = .ok p → CompEdge extra p := by
    intro m h
    unfold pathNextPlain at h
    obtain ⟨⟨i, sep, esc, pat, marg⟩, _, h⟩ := bind_eq_ok.1 h
    simp only at h
    split at h
    · simp only [ok_bind] at h
      obtain ⟨rest, _, h⟩ := bind_eq_ok.1 h
      cases h
      exact ⟨[], by simp, .nil_right _⟩
    · rename_i hne
      split at h
      · obtain ⟨comp, h1, h⟩ := bind_eq_ok.1 h
        simp [rpanic] at h1
      · obtain ⟨comp, h1, h⟩ := bind_eq_ok.1 h
        obtain ⟨rest, _, h⟩ := bind_eq_ok.1 h
        cases h
        exact absurd hs hne
  have qend : ∀ {i s}, pathNextQueryEnd extra i s = .ok p → CompEdge extra p := by
    intro i s h
    unfold pathNextQueryEnd at h
    obtain ⟨rest, _, h⟩ := bind_eq_ok.1 h
    obtain ⟨comp, _, h⟩ := bind_eq_ok.1 h
    split at h
    · simp [rpanic] at h
    · rename_i hl
      obtain ⟨last, h2, h⟩ := bind_eq_ok.1 h
      split at h
      · rename_i hlast
        split at h
        · simp [rpanic] at h
        · obtain ⟨last2, _, h⟩ := bind_eq_ok.1 h
          split at h
          · cases h; exact compEdge_empty _
          · cases h; exact compEdge_last hok.comp hl h2 (by rw [hlast]; decide)
      · split at h
        · cases h; exact compEdge_empty _
        · rename_i hlast
          cases h
          exact compEdge_last hok.comp hl h2 (by simp at hlast; rw [hlast]; decide)
  have query : pathNextQuery extra = .ok p → CompEdge extra p := by
    intro h
    unfold pathNextQuery at h
    obtain ⟨c1, _, h⟩ := bind_eq_ok.1 h
    split at h
    · cases h; exact compEdge_empty _
    obtain ⟨⟨_, i⟩, _, h⟩ := bind_eq_ok.1 h
    simp only at h
    split at h
    · obtain ⟨c, _, h⟩ := bind_eq_ok.1 h
      split at h
      · split at h
        · obtain ⟨c', _, h⟩ := bind_eq_ok.1 h
          split at h
          · exact qend h
          · cases h; exact compEdge_empty _
        · exact qend h
      · split at h
        · exact qend h
        · cases h; exact compEdge_empty _
    · exact qend h
  have multi : ∀ {c r}, extra = c :: r → pathNextMultipath extra = .ok p → CompEdge extra p := by
    intro c r he h
    have hz : At extra 0 (c :: r) := by rw [he]; exact At.zero _
    have hsq := scanSquash_at hz
    have key : ∀ {i : Nat} {x : Bytes}, scanSquash extra 0 = .ok (x, i) → EdgeAt extra i := by
      intro i x hx
      cases hq : sq 1 false r with
      | none => rw [hq] at hsq; simp only at hsq; rw [hsq] at hx; cases hx; exact .end _
      | some y =>
        obtain ⟨b, q⟩ := y
        rw [hq] at hsq
        simp only at hsq
        rw [hsq.1] at hx
        cases hx
        obtain ⟨a, d, rfl, hd⟩ := sq_last hq
        have e := (sq_append hq).1
        left
        have e2 : extra = (c :: (a ++ [d])) ++ q := by rw [he, e]; simp
        have e3 : List.take (0 + (c :: (a ++ [d])).length) extra = (c :: a) ++ [d] := by
          rw [e2, Nat.zero_add, List.take_left]; simp
        rw [e3, List.getLast?_append]
        simpa using closeTok_ascii hd
    have done : ∀ {i : Nat} {comp : Bytes}, EdgeAt extra i → slice extra 0 i = .ok comp → p.comp = comp → CompEdge extra p := by
      intro i comp hi hsl hc
      have h3 : comp = extra.take i := by
        unfold slice at hsl
        split at hsl
        · simp [sub] at hsl; rw [hsl]
        · simp at hsl
      exact ⟨extra.drop i, by rw [hc, h3]; simp, by rw [hc, h3]; exact hi⟩
    unfold pathNextMultipath at h
    obtain ⟨⟨x, i⟩, h1, h⟩ := bind_eq_ok.1 h
    simp only at h
    split at h
    · obtain ⟨comp, h2, h⟩ := bind_eq_ok.1 h
      obtain ⟨rest, _, h⟩ := bind_eq_ok.1 h
      cases h
      exact done (key h1) h2 rfl
    · obtain ⟨c', _, h⟩ := bind_eq_ok.1 h
      split at h
      · obtain ⟨comp, h2, h⟩ := bind_eq_ok.1 h
        obtain ⟨rest, _, h⟩ := bind_eq_ok.1 h
        cases h
        exact done (key h1) h2 rfl
      · obtain ⟨comp, h2, h⟩ := bind_eq_ok.1 h
        obtain ⟨rest, _, h⟩ := bind_eq_ok.1 h
        cases h
        exact done (key h1) h2 rfl
  cases extra with
  | nil => unfold pathNext at hp; exact plain hp
  | cons c r =>
    unfold pathNext at hp
    simp only at hp
    split at hp
    · exact plain hp
    split at hp
    · split at hp
      · exact plain hp
      · obtain ⟨c1, _, hp⟩ := bind_eq_ok.1 hp
        split at hp
        · exact plain hp
        · exact query hp
    split at hp
    · exact multi rfl hp
    · exact plain hp

theorem pNext_cut (extra : Bytes) : Cut extra (pNext extra).comp := by
  obtain ⟨r, h1, h2⟩ := pNext_edge extra
  exact .pre (b := r) (by rw [← h1]; exact .refl) h2

theorem pNext_rest (extra : Bytes) (h : (pNext extra).sep ≠ 0) : Cut extra (pNext extra).extra := by
  obtain ⟨h1, h2⟩ := (pNext_ok extra).sep h
  refine Cut.suf (a := (pNext extra).comp ++ [(pNext extra).sep]) (by rw [List.append_assoc]; simp only [List.singleton_append]; rw [← h2]; exact .refl)
    (.last (sep_ascii h1) _)

/-! ### `next_group` -/

theorem nextGroupLoop_cut {extra0 : Bytes} : ∀ (n len : Nat) (rem : Path) (pre extra : Bytes),
    extra0 = pre ++ extra → PathOk extra rem → CompEdge extra rem → Edge pre extra → (∀ c ∈ pre.getLast?, c < 0x80) →
    (rem.sep ≠ 0 → Cut extra0 rem.extra) →
    len = pre.length + rem.comp.length → ∀ len' rem', nextGroupLoop n len rem = .ok (len', rem') →
    EdgeAt extra0 len' ∧ (rem'.sep ≠ 0 → Cut extra0 rem'.extra)
  | 0, _, _, _, _, _, _, _, _, _, _, _, _, _, h => by simp [nextGroupLoop, outOfFuel] at h
  | n + 1, len, rem, pre, extra, he, hok, hce, hpe, hpl, hcut, hlen, len', rem', h => by
    unfold nextGroupLoop at h
    split at h
    · rename_i hs
      have hs0 : rem.sep ≠ 0 := by rw [hs]; decide
      rw [pathNext_eq] at h
      simp only [ok_bind] at h
      have h1 := hok.sep hs0
      have hl := Edge.last (a := pre ++ rem.comp) (sep_ascii h1.1) rem.extra
      refine nextGroupLoop_cut n _ _ (pre ++ rem.comp ++ [rem.sep]) rem.extra ?_ (pNext_ok _) (pNext_edge _) hl
        (by simpa using sep_ascii h1.1) (fun hx => (hcut hs0).trans (pNext_rest _ hx)) ?_ len' rem' h
      · rw [he]; conv => { lhs; rw [h1.2] }
        simp
      · simp; omega
    · cases h
      refine ⟨?_, hcut⟩
      obtain ⟨r, hr1, hr2⟩ := hce
      unfold EdgeAt
      have e : extra0 = (pre ++ rem.comp) ++ r := by rw [he, hr1]; simp
      have e2 : len = (pre ++ rem.comp).length := by rw [hlen]; simp
      rw [e2, e, List.take_left, List.drop_left]
      rcases hr2 with h | h
      · left
        cases hc : rem.comp with
        | nil => simpa using hpl
        | cons a b =>
          rw [hc] at h
          rw [List.getLast?_append]
          rw [List.getLast?_cons] at h ⊢
          simpa using h
      · exact .inr h

theorem pGroup_cut (p : Path) (h : p.sep = c! '.') :
    Cut p.extra (pGroup p).1 ∧ ((pGroup p).2.sep ≠ 0 → Cut p.extra (pGroup p).2.extra) := by
  obtain ⟨g, r, h1, _⟩ := nextGroup_ok p h
  have h2 : pGroup p = (g, r) := by unfold pGroup; rw [h1]
  rw [h2]
  unfold Path.nextGroup at h1
  rw [if_neg (by simp [h]), pathNext_eq] at h1
  simp only [ok_bind] at h1
  obtain ⟨⟨len, rem⟩, h3, h1⟩ := bind_eq_ok.1 h1
  obtain ⟨group, h4, h1⟩ := bind_eq_ok.1 h1
  cases h1
  obtain ⟨g1, g2⟩ := nextGroupLoop_cut (extra0 := p.extra) _ _ _ [] p.extra rfl (pNext_ok _) (pNext_edge _) (.nil_left _)
    (by simp) (fun hx => pNext_rest _ hx) (by simp) _ _ h3
  exact ⟨cut_slice (.zero _) g1 h4, g2⟩

/-! ### What remains of a path after a search -/

/-- A path whose remaining part was cut from `p0`. -/
def CutRest (p0 : Bytes) (p : Path) : Prop := p.sep ≠ 0 → Cut p0 p.extra

theorem CutRest.empty (p0 : Bytes) : CutRest p0 Path.empty := fun h => absurd rfl h

theorem cutRest_next {p0 : Bytes} {p : Path} (h : CutRest p0 p) (hd : p.dives = true) : CutRest p0 (pNext p.extra) := by
  have h1 : p.sep = c! '.' := by unfold Path.dives at hd; simp at hd; exact hd.1.1
  intro h2
  exact (h (by rw [h1]; decide)).trans (pNext_rest _ h2)

theorem gArr_cut {p0 : Bytes} {rec : GetFn} {path : Path} (hp : CutRest p0 path) {L : Nat} {lines : Bool} {s : Bytes}
    {x : Value × Path} (h : gArr rec L lines path s = .ok x) : CutRest p0 x.2 := by
  obtain ⟨v, p⟩ := x
  rcases gArrVals_path h with rfl | ⟨hs, rfl⟩
  · exact hp
  · intro h0
    exact (hp (by rw [hs]; decide)).trans ((pGroup_cut path hs).2 h0)

theorem gObj_cut {p0 : Bytes} {rec : GetFn} {L : Nat} : ∀ (k : Nat) {path : Path}, pathRank path < k → CutRest p0 path →
    ∀ {s : Bytes} {x : Value × Path}, gObj rec L path s = .ok x → CutRest p0 x.2
  | 0, _, h, _, _, _, _ => by omega
  | k + 1, path, hk, hp, s, x, h => by
    rw [gObj.eq_def] at h
    cases s with
    | nil => simp at h; rw [← h]; exact hp
    | cons c r =>
      simp only at h
      split at h
      · simp at h; rw [← h]; exact hp
      · refine gObjLoop_ind (P := fun x => CutRest p0 x.2) hp (fun _ _ _ => hp) (fun _ _ _ _ => hp) ?_ r x h
        intro v y hy hd
        rw [dif_pos hd] at hy
        have := pathRank_next hd
        split at hy
        · exact gObj_cut k (by omega) (cutRest_next hp hd) hy
        · exact gArr_cut (cutRest_next hp hd) hy

theorem gStart_cut {p0 : Bytes} {rec : GetFn} {L : Nat} {path : Path} (hp : CutRest p0 path) : ∀ {s : Bytes} {x : Value × Path},
    gStart rec L path s = .ok x → CutRest p0 x.2
  | [], x, h => by simp [gStart] at h; rw [← h]; exact hp
  | c :: r, x, h => by
    unfold gStart at h
    split at h
    · exact gStart_cut hp h
    split at h
    · exact gObj_cut _ (Nat.lt_succ_self _) hp h
    split at h
    · exact gArr_cut hp h
    · simp at h; rw [← h]; exact hp

theorem getFirst_cut {rec : GetFn} {json path : Bytes} {x : Value × Path}
    (h : getFirst rec json path = .ok x) : CutRest path x.2 := by
  rw [getFirst_eq] at h
  simp only at h
  have hs : CutRest path (pNext (linesPrefix path).1) := fun hx => (linesPrefix_cut path).trans (pNext_rest _ hx)
  split at h
  · exact gArr_cut hs h
  split at h
  · rw [modExec_path h]; exact hs
  split at h
  · rcases multiExec_path h with h1 | h1
    · rw [h1]; exact hs
    · rw [h1]; exact .empty _
  · exact gStart_cut hs h

/-! ### `each_comp` -/

theorem nameOfLastLoop_cut {path : Bytes} : ∀ {n : Nat} {k : Bytes}, nameOfLastLoop path n = .ok k → Cut path k
  | 0, k, h => by simp [nameOfLastLoop] at h; rw [h]; exact .refl
  | i + 1, k, h => by
    unfold nameOfLastLoop at h
    obtain ⟨c, h1, h⟩ := bind_eq_ok.1 h
    split at h
    · rename_i hc
      have he := (edgeAt_of h1 (by rcases hc with rfl | rfl <;> decide)).2
      split at h
      · obtain ⟨d, _, h⟩ := bind_eq_ok.1 h
        split at h
        · exact nameOfLastLoop_cut h
        · exact cut_sliceFrom he h
      · exact cut_sliceFrom he h
    · exact nameOfLastLoop_cut h

/-- A key of a multipath: cut from the path, or `_`. -/
def KeyCut (path k : Bytes) : Prop := Cut path k ∨ k = b!"_"

theorem compAt_cut {path : Bytes} {s i : Nat} {c : Option Nat} {k p : Bytes} (hs : EdgeAt path s) (hi : EdgeAt path i)
    (hc : ∀ j ∈ c, EdgeAt path j ∧ EdgeAt path (j + 1)) (h : compAt path s i c = .ok (k, p)) :
    KeyCut path k ∧ Cut path p := by
  unfold compAt at h
  split at h
  · obtain ⟨a, h1, h⟩ := bind_eq_ok.1 h
    obtain ⟨b, h2, h⟩ := bind_eq_ok.1 h
    cases h
    have := hc _ rfl
    exact ⟨.inl (cut_slice hs this.1 h1), cut_slice this.2 hi h2⟩
  · obtain ⟨a, h1, h⟩ := bind_eq_ok.1 h
    obtain ⟨b, h2, h⟩ := bind_eq_ok.1 h
    cases h
    have h3 := cut_slice hs hi h1
    refine ⟨?_, h3⟩
    unfold keyForPath at h2
    obtain ⟨k', h4, h2⟩ := bind_eq_ok.1 h2
    cases h2
    split
    · exact .inl (h3.trans (nameOfLastLoop_cut h4))
    · exact .inr rfl

theorem eachCompLoop_cut {σ : Type} {path : Bytes} {f : σ → Bytes → Bytes → Res σ} {P : σ → Prop}
    (hf : ∀ st k p st', P st → KeyCut path k → Cut path p → f st k p = .ok st' → P st') :
    ∀ (n i : Nat) (c : Option Nat) (s : Nat) (st st' : σ), P st → EdgeAt path s →
      (∀ j ∈ c, EdgeAt path j ∧ EdgeAt path (j + 1)) →
      eachCompLoop path f n i c s st = .ok st' → P st'
  | 0, _, _, _, _, _, _, _, _, h => by simp [eachCompLoop, outOfFuel] at h
  | n + 1, i, c, s, st, st', hst, hs, hc, h => by
    unfold eachCompLoop at h
    split at h
    · rename_i hi
      obtain ⟨⟨k, p⟩, h1, h2⟩ := bind_eq_ok.1 h
      obtain ⟨h3, h4⟩ := compAt_cut hs (by rw [hi]; exact .end _) hc h1
      exact hf _ _ _ _ hst h3 h4 h2
    · obtain ⟨ch, hch, h⟩ := bind_eq_ok.1 h
      simp only at h
      split at h
      · split at h
        · cases h; exact hst
        · exact eachCompLoop_cut hf n _ _ _ _ _ hst hs hc h
      split at h
      · obtain ⟨⟨a, b⟩, _, h2⟩ := bind_eq_ok.1 h
        exact eachCompLoop_cut hf n _ _ _ _ _ hst hs hc h2
      split at h
      · rename_i hcc
        obtain ⟨⟨k, p⟩, h1, h2⟩ := bind_eq_ok.1 h
        obtain ⟨st1, h3, h4⟩ := bind_eq_ok.1 h2
        have he := edgeAt_of hch (by rw [hcc]; decide)
        obtain ⟨h5, h6⟩ := compAt_cut hs he.1 hc h1
        exact eachCompLoop_cut hf n _ _ _ _ _ (hf _ _ _ _ hst h5 h6 h3) he.2 (by simp) h4
      split at h
      · rename_i hcc
        have he := edgeAt_of hch (by rw [hcc]; decide)
        exact eachCompLoop_cut hf n _ _ _ _ _ hst hs (by simpa using he) h
      · exact eachCompLoop_cut hf n _ _ _ _ _ hst hs hc h

end Gjson
