import Verif.Lemmas.Seek
import Verif.Lemmas.Total
/-
Every search of `Spec.Seek` has an outcome.
-/
namespace Gjson
open Spec

theorem fine_false {α : Type} {x : Res α} (h : Fine False x) : ∃ v, x = .ok v := by
  rcases h with h | ⟨_, h⟩
  · exact h
  · exact h.elim

theorem cut_rest {path : Bytes} {P : Parts} (h : CutUp path P) : P.rest <:+: path ∧ P.comp <:+: path := by
  have hok := pNext_ok path
  rw [cut_next h] at hok
  exact ⟨hok.rest.isInfix, hok.comp.isInfix⟩

theorem need_cut {path : Bytes} {P : Parts} (h : CutUp path P) (hn : ¬ PrefixInQuery path) : Need False P.path := by
  obtain ⟨h1, h2⟩ := cut_rest h
  have key : ∀ p, p <:+: path → ∀ json, Fine False (get json p) := fun p hp json => (get_fine p json).mono fun hb => hn (hb.mono hp)
  exact ⟨fun _ => ⟨fun p hp => key p (hp.trans h1), fun hb => hn (hb.mono h1)⟩, fun _ => ⟨fun p hp _ => key p (hp.trans h2), fun hb => hn (hb.mono h2)⟩⟩

theorem libHolds_of {lh op rh e : Bytes} {b : Bool} {v : Value} (h1 : OneText v) (he : SameAsText v e)
    (h : elemMatches get lh op rh v = .ok b) : libAsks.holds lh op rh e b := by
  unfold elemMatches at h
  by_cases hl : lh = []
  · rw [if_neg (by simpa using hl)] at h
    obtain ⟨_, _, x, h3, h4⟩ := he
    exact ⟨x, by rw [if_pos hl]; exact h3, by rw [← queryMatches_congr h4]; exact h⟩
  · rw [if_pos (by simpa using hl)] at h
    obtain ⟨u, h3, h4⟩ := bind_eq_ok.1 h
    have hs := getIn_same h1 lh
    rw [h3, he.1] at hs
    generalize hg : get e lh = y at hs
    cases hs with
    | ok hw => exact ⟨_, by rw [if_neg hl]; exact hg, by rw [← queryMatches_congr hw]; exact h4⟩

theorem asks_total {g : Bytes} (h : ∀ json, Fine False (get json g)) : ∀ vs : List Bytes, ∃ os, Aligned (fun e o => libAsks.ask e g o) vs os
  | [] => ⟨[], .nil⟩
  | v :: vs => by
    obtain ⟨os, ho⟩ := asks_total h vs
    obtain ⟨w, hw⟩ := fine_false (h v)
    exact ⟨_ :: os, .cons ⟨w, hw, rfl⟩ ho⟩

theorem aligned_source {α β : Type} {R : α → β → Prop} {as : List α} {bs : List β} (h : Aligned R as bs) : ∀ b ∈ bs, ∃ a ∈ as, R a b := by
  induction h with
  | nil => simp
  | @cons a b as bs hr _ ih =>
    intro x hx
    rcases List.mem_cons.1 hx with rfl | hx
    · exact ⟨a, by simp, hr⟩
    · obtain ⟨y, h1, h2⟩ := ih x hx
      exact ⟨y, List.mem_cons_of_mem _ h1, h2⟩

open Classical in
theorem holds_total {P : Parts} {lh op rh : Bytes} (hN : Need False P.path) (hh : P.comp.head? = some c! '#') (hq : QueryCut P.comp lh op rh)
    {vals : List Value} {vs : List Bytes} (a : Aligned SameAsText vals vs) (hm : ∀ v ∈ vals, Met v) :
    ∃ test : Bytes → Bool, ∀ v ∈ vs, libAsks.holds lh op rh v (test v) := by
  refine ⟨fun v => decide (libAsks.holds lh op rh v true), fun e he => ?_⟩
  obtain ⟨v, h1, h2⟩ := aligned_source a e he
  obtain ⟨b, hb⟩ := fine_false (elemMatches_fine hN hh (hm v h1))
  rw [queryCut_pParts (p := P.path) hq] at hb
  have := libHolds_of (hm v h1).prov.oneText h2 hb
  by_cases ht : libAsks.holds lh op rh e true
  · simp [ht]
  · cases b with
    | true => exact absurd this ht
    | false => simpa [ht] using this

theorem groupOf_infix {P : Parts} {g r : Bytes} {sep : UInt8} (h : GroupOf P.rest g sep r) (hs : P.sep = c! '.') (hN : Need False P.path) :
    ∀ json, Fine False (get json g) :=
  (hN.group (show P.path.sep ≠ 0 by rw [show P.path.sep = P.sep from rfl, hs]; decide)).1 g (groupOf_prefix h).isInfix

theorem picks_total {path : Bytes} {P : Parts} (hc : CutUp path P) (hk : ¬ Computes P.comp) (hN : Need False P.path)
    {vals : List Value} {vs : List Bytes} (a : Aligned SameAsText vals vs) (hm : ∀ v ∈ vals, Met v) : ∃ o, Picks libAsks vs P o := by
  have plain : ∀ {k rest : Bytes} {e w : Bool} {sep : UInt8} {m : Nat}, (∀ c ∈ k.head?, c ≠ c! '#') →
      ∃ o, Picks libAsks vs ⟨k, e, w, sep, m, rest⟩ o := by
    intro k rest e w sep m hk
    by_cases hx : ∃ n v, IndexText k n ∧ n < 2 ^ 63 ∧ vs[n]? = some v
    · obtain ⟨n, v, h1, h2, h3⟩ := hx
      exact ⟨_, .index h1 h2 h3⟩
    · refine ⟨_, .beyond hk fun n h1 h2 => ?_⟩
      cases h3 : vs[n]? with
      | none => rfl
      | some v => exact absurd ⟨n, v, h1, h2, h3⟩ hx
  have query : ∀ {q h rest : Bytes} {sep : UInt8}, h = [] ∨ h = b!"#" → P = ⟨b!"#(" ++ q ++ b!")" ++ h, false, false, sep, 0, rest⟩ →
      ∃ o, Picks libAsks vs P o := by
    rintro q h rest sep hh rfl
    obtain ⟨lh, op, rh, hq⟩ := queryCut_exists (b!"#(" ++ q ++ b!")" ++ h)
    obtain ⟨test, ht⟩ := holds_total hN rfl hq a hm
    rcases hh with rfl | rfl
    · simp only [List.append_nil] at hq ⊢
      exact ⟨_, .first hq ht⟩
    · have e : b!"#(" ++ q ++ b!")" ++ b!"#" = b!"#(" ++ q ++ b!")#" := by simp
      rw [e] at hq
      simp only [e] at hN ⊢
      by_cases hs : sep = c! '.'
      · subst hs
        obtain ⟨g, s, r, hg⟩ := groupOf_exists _ rest (Nat.le_refl _)
        obtain ⟨os, ho⟩ := asks_total (groupOf_infix hg rfl hN) (vs.filter test)
        exact ⟨_, .allMap hq ht hg ho⟩
      · exact ⟨_, .all hq ht hs⟩
  have comp : ∀ {c : UInt8} {t : Bytes}, P.comp = c :: t → c ∈ b!"@[{" → ∃ o, Picks libAsks vs P o :=
    fun h1 h2 => absurd ⟨_, by rw [h1]; rfl, h2⟩ hk
  cases hc with
  | key _ h _ => exact plain fun c hc => by have := h c hc; simp only [List.mem_cons, List.not_mem_nil, or_false, not_or] at this; exact this.2.1
  | @keyBackslash k _ _ _ h =>
    refine plain fun c hc => ?_
    cases k with
    | nil => simp at hc; subst hc; decide
    | cons d t =>
      have := h c (by simpa using hc)
      simp only [List.mem_cons, List.not_mem_nil, or_false, not_or] at this; exact this.2.1
  | @count t rest sep _ =>
    by_cases hs : sep = c! '.'
    · subst hs
      obtain ⟨g, s, r, hg⟩ := groupOf_exists _ rest (Nat.le_refl _)
      obtain ⟨os, ho⟩ := asks_total (groupOf_infix hg rfl hN) vs
      exact ⟨_, .map hg ho⟩
    · exact ⟨_, .count hs⟩
  | query _ h _ => exact query h rfl
  | queryOpen _ h => exact query h rfl
  | badHash => exact plain (by simp)
  | badClose => exact plain (by simp)
  | badAfter => exact plain (by simp)
  | badOpen => exact plain (by simp)
  | @multi g _ _ _ hb h _ => obtain ⟨o, _, _, _, _, _, rfl⟩ := hb; exact comp rfl (by have := h o rfl; simp at this ⊢; grind)
  | @multiMore g _ _ hb h _ => obtain ⟨o, _, _, _, _, _, rfl⟩ := hb; exact comp rfl (by have := h o rfl; simp at this ⊢; grind)
  | multiOpen h _ => exact comp rfl (by simp at h ⊢; grind)
  | modifier => exact comp rfl (by decide)
  | modifierBackslash => exact comp rfl (by decide)
  | argument => exact comp rfl (by decide)
  | argumentJson => exact comp rfl (by decide)
  | argumentMore => exact comp rfl (by decide)
  | argumentOpen => exact comp rfl (by decide)

open Classical in
theorem among_total {P P' : Parts} (hcut : CutUp P.rest P')
    (ih : P.sep = c! '.' → ¬ Computes P'.comp → ∀ v, IsValue v → ∃ o, Seek libAsks v P' o) (n : Nat) : ∀ es, weight es ≤ n → EntriesOk es →
    ∃ o, Among libAsks P es o := by
  induction n with
  | zero =>
    intro es hn _
    match es with
    | [] => exact ⟨_, .nil⟩
    | .stop :: es => exact ⟨_, .stop⟩
    | .member kl v :: es => simp [weight] at hn
  | succ n ihn =>
    intro es hn hok
    match es with
    | [] => exact ⟨_, .nil⟩
    | .stop :: es => exact ⟨_, .stop⟩
    | .member kl v :: es =>
      have hv := (hok kl v (by simp)).2
      have hes : EntriesOk es := fun a b h => hok a b (List.mem_cons_of_mem _ h)
      simp only [weight] at hn
      by_cases hit : libAsks.hit P.comp (P.esc || P.wild) kl
      · by_cases hs : P.sep = c! '.'
        · by_cases hcomp : Computes P'.comp
          · exact ⟨_, .computes hit hcut hcomp⟩
          · by_cases hc : IsCont v
            · obtain ⟨o, ho⟩ := ih hs hcomp v hv
              cases o with
              | none =>
                obtain ⟨es', h1, h2, h3⟩ := met_one hv
                obtain ⟨o, h4⟩ := ihn (es' ++ es) (by rw [weight_append]; omega) (by
                  intro a b h
                  rcases List.mem_append.1 h with h | h
                  · exact h3 a b h
                  · exact hes a b h)
                exact ⟨o, .again hit hs hc hcut hcomp ho h1 h4⟩
              | some r => exact ⟨_, .into hit hs hc hcut hcomp ho⟩
            · unfold IsCont at hc
              rw [not_or] at hc
              exact ⟨_, .scalar hit hc.1 hc.2⟩
        · exact ⟨_, .last hit hs⟩
      · obtain ⟨o, h⟩ := ihn es (by omega) hes
        exact ⟨o, .skip hit h⟩

theorem seek_total : ∀ (n : Nat) {path : Bytes} {P : Parts}, path.length < n → CutUp path P → ¬ Computes P.comp → Need False P.path →
    ∀ v, IsValue v → ∃ o, Seek libAsks v P o := by
  intro n
  induction n with
  | zero =>
    intro path P hn
    omega
  | succ n ih =>
    intro path P hn hc hk hN v hv
    by_cases hcont : IsCont v
    · rcases isCont_cases hv hcont with ⟨kvs, ho⟩ | ⟨vs, ha⟩
      · obtain ⟨P', hcut⟩ := cutUp_total P.rest
        obtain ⟨o, h⟩ := among_total hcut (fun hs hcomp v hv => by
          have hp := (cutUp_comp hc).2 (by rw [hs]; decide)
          refine ih (path := P.rest) (by rw [hp] at hn; simp at hn; omega) hcut hcomp ?_ v hv
          have := hN.next (show P.path.sep ≠ 0 by rw [show P.path.sep = P.sep from rfl, hs]; decide)
          rw [show pNext P.path.extra = P'.path from cut_next hcut] at this
          exact this) _ _ (Nat.le_refl _) (object_ok ho)
        exact ⟨o, .obj ho h⟩
      · have hm : ∀ x ∈ eachToks 0 false (v ++ []), Met x := fun x hx => ⟨eachToks_prov _ _ _ x hx, eachToks_clean _ _ _ x hx⟩
        obtain ⟨o, h⟩ := picks_total hc hk hN (array_toks ha [] 0) hm
        exact ⟨o, .arr ha h⟩
    · unfold IsCont at hcont
      rw [not_or] at hcont
      exact ⟨_, .scalar hcont.1 hcont.2⟩

end Gjson
