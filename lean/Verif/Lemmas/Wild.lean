import Verif.Spec
import Verif.Lemmas.PMatch
import Verif.Lemmas.Pad
/-
`pmatch` decides the wildcard grammar, except for the escaped question mark.
-/
namespace Gjson
open Spec

/-- What an escaped byte stands for in the code: itself, but `\?` is any byte. -/
def CodeEsc (c d : UInt8) : Prop := c = d ∨ c = c! '?'

theorem star_all (E : UInt8 → UInt8 → Prop) (s : Bytes) : MatchesE E [c! '*'] s := by
  have := MatchesE.star (E := E) s .nil
  simpa using this

theorem star_star {E : UInt8 → UInt8 → Prop} {r s : Bytes} :
    MatchesE E (c! '*' :: c! '*' :: r) s ↔ MatchesE E (c! '*' :: r) s := by
  constructor
  · intro h
    generalize hp : c! '*' :: c! '*' :: r = p at h
    cases h with
    | nil => simp at hp
    | star a h =>
      simp only [List.cons.injEq, true_and] at hp
      subst hp
      generalize hq : c! '*' :: r = p at h
      cases h with
      | nil => simp at hq
      | star b h =>
        simp only [List.cons.injEq, true_and] at hq
        subst hq
        rw [← List.append_assoc]
        exact .star _ h
      | any h => simp at hq
      | esc h1 h => simp at hq
      | plain h1 h2 h3 h => simp at hq; exact absurd hq.1.symm h1
    | any h => simp at hp
    | esc h1 h => simp at hp
    | plain h1 h2 h3 h => simp at hp; exact absurd hp.1.symm h1
  · intro h
    exact .star [] h

theorem star_cons {E : UInt8 → UInt8 → Prop} {r s : Bytes} :
    MatchesE E (c! '*' :: r) s ↔ MatchesE E r s ∨ ∃ d t, s = d :: t ∧ MatchesE E (c! '*' :: r) t := by
  constructor
  · intro h
    generalize hp : c! '*' :: r = p at h
    cases h with
    | nil => simp at hp
    | star a h =>
      simp only [List.cons.injEq, true_and] at hp
      subst hp
      cases a with
      | nil => exact .inl h
      | cons d a => exact .inr ⟨d, a ++ _, rfl, .star a h⟩
    | any h => simp at hp
    | esc h1 h => simp at hp
    | plain h1 h2 h3 h => simp at hp; exact absurd hp.1.symm h1
  · rintro (h | ⟨d, t, rfl, h⟩)
    · exact .star [] h
    · generalize hp : c! '*' :: r = p at h
      cases h with
      | nil => simp at hp
      | star a h => rw [← List.cons_append]; exact .star _ h
      | any h => simp at hp
      | esc h1 h => simp at hp
      | plain h1 h2 h3 h => simp at hp; exact absurd hp.1.symm h1

theorem pm_iff (p s : Bytes) : pm p s = true ↔ MatchesE CodeEsc p s := by
  fun_induction pm p s with
  | case1 s =>
    simp only [decide_eq_true_eq]
    constructor
    · rintro rfl; exact .nil
    · intro h; cases h; rfl
  | case2 s =>
    simp only [Bool.false_eq_true, false_iff]; intro h
    cases h with
    | plain _ _ h => exact absurd rfl h
  | case3 p0 r =>
    simp only [Bool.false_eq_true, false_iff]; intro h; cases h
  | case4 p1 r s0 sr ih =>
    simp only [Bool.and_eq_true, decide_eq_true_eq, ih]
    constructor
    · rintro ⟨h, h2⟩
      exact .esc (by unfold CodeEsc; grind) h2
    · intro h
      cases h with
      | esc h1 h2 => exact ⟨by unfold CodeEsc at h1; grind, h2⟩
      | plain h1 h2 h3 h => exact absurd rfl h3
  | case5 s h1 => simp [star_all]
  | case6 s r h1 ih => rw [ih, star_star]
  | case7 s p1 r h3 h1 ih1 ih2 =>
    rw [star_cons]
    simp only [Bool.or_eq_true, ih1]
    cases s with
    | nil => simp
    | cons d t =>
      simp only at ih2
      simp only [ih2]
      constructor
      · rintro (h | h)
        · exact .inl h
        · exact .inr ⟨d, t, rfl, h⟩
      · rintro (h | ⟨_, _, he, h⟩)
        · exact .inl h
        · simp only [List.cons.injEq] at he
          rw [← he.2] at h
          exact .inr h
  | case8 p0 r h1 h2 =>
    simp only [Bool.false_eq_true, false_iff]; intro h
    generalize ht : ([] : Bytes) = t at h
    cases h with
    | star => exact absurd rfl h2
    | any => simp at ht
    | esc => simp at ht
    | plain => simp at ht
  | case9 p0 r h1 h2 s0 sr ih =>
    simp only [Bool.and_eq_true, decide_eq_true_eq, ih]
    constructor
    · rintro ⟨h, h3⟩
      by_cases hq : p0 = c! '?'
      · subst hq; exact .any h3
      · have : s0 = p0 := by grind
        subst this; exact .plain h2 hq h1 h3
    · intro h
      generalize ht : s0 :: sr = t at h
      cases h with
      | star => exact absurd rfl h2
      | any h => simp only [List.cons.injEq] at ht; rw [ht.2]; exact ⟨.inl rfl, h⟩
      | esc => exact absurd rfl h1
      | plain a b c h => simp only [List.cons.injEq] at ht; rw [ht.1, ht.2]; exact ⟨.inr rfl, h⟩

theorem codeEsc_iff {p s : Bytes} (h : escapesQuestion p = false) : MatchesE CodeEsc p s ↔ Matches p s := by
  have aux : ∀ {E F : UInt8 → UInt8 → Prop}, (∀ c d, c ≠ c! '?' → E c d → F c d) →
      ∀ {p s : Bytes}, MatchesE E p s → escapesQuestion p = false → MatchesE F p s := by
    intro E F hEF p s hm
    have tail : ∀ {c : UInt8} {p : Bytes}, c ≠ c! '\\' → escapesQuestion (c :: p) = false → escapesQuestion p = false := by
      intro c p hc h
      cases p with
      | nil => rfl
      | cons d p => unfold escapesQuestion at h; rw [if_neg hc] at h; exact h
    induction hm with
    | nil => intro _; exact .nil
    | star a _ ih => intro h; exact .star a (ih (tail (by decide) h))
    | any _ ih => intro h; exact .any (ih (tail (by decide) h))
    | esc he _ ih =>
      intro h
      unfold escapesQuestion at h
      simp at h
      exact .esc (hEF _ _ (by simpa using h.1) he) (ih h.2)
    | plain a b c _ ih => intro h; exact .plain a b c (ih (tail c h))
  constructor
  · intro hm; exact aux (fun c d hc h => by unfold CodeEsc at h; grind) hm h
  · intro hm; exact aux (fun c d _ h => .inl h) hm h

theorem lone_noMatch {E : UInt8 → UInt8 → Prop} {p s : Bytes} (h : MatchesE E p s) : loneBackslash p = false := by
  have tail : ∀ {c : UInt8} {p : Bytes}, c ≠ c! '\\' → loneBackslash p = false → loneBackslash (c :: p) = false := by
    intro c p hc h
    cases p with
    | nil => simpa [loneBackslash] using hc
    | cons d p => unfold loneBackslash; rw [if_neg hc]; exact h
  induction h with
  | nil => rfl
  | star a _ ih => exact tail (by decide) ih
  | any _ ih => exact tail (by decide) ih
  | esc _ _ ih => unfold loneBackslash; simpa using ih
  | plain _ _ c _ ih => exact tail c ih

theorem CompText.body {k : Bytes} (h : CompText k) : ∃ e p, CompBody k e p := by
  induction h with
  | nil => exact ⟨_, _, .nil⟩
  | esc _ ih => obtain ⟨e, p, h⟩ := ih; exact ⟨_, _, .esc h⟩
  | @plain c r hc _ ih =>
    obtain ⟨e, p, h⟩ := ih
    by_cases hw : c = c! '*' ∨ c = c! '?'
    · exact ⟨_, _, .wild hw h⟩
    · refine ⟨_, _, .plain ?_ h⟩
      unfold Special IsSep; simp at hc; grind

theorem plainFirst_of {k : Bytes} (h : ∀ c ∈ k.head?, c ∉ pathStart) : PlainFirst k := by
  cases k with
  | nil => trivial
  | cons c k =>
    have := h c (by simp)
    unfold pathStart at this
    simp at this
    show c ≠ _ ∧ _
    grind

theorem Selector.ord {k : Bytes} (h : Selector k) : OrdComp k := ⟨CompText.body h.1, plainFirst_of h.2.1, h.2.2⟩

theorem PlainKey.selector {k : Bytes} (h : PlainKey k) (hne : k ≠ []) : Selector k := by
  refine ⟨?_, h.2, hne⟩
  have := h.1
  clear h hne
  induction k with
  | nil => exact .nil
  | cons c k ih =>
    refine .plain ?_ (ih fun x hx => this x (List.mem_cons_of_mem _ hx))
    have := this c (by simp)
    unfold pathSpecial at this
    simp at this ⊢
    grind

/-! ### Escaped keys -/

theorem EscapedAs.compBody {k p : Bytes} (h : EscapedAs k p) : ∃ e, CompBody p e false ∧ (e = false → p = k) := by
  induction h with
  | nil => exact ⟨false, .nil, fun _ => rfl⟩
  | plain hc _ ih =>
    obtain ⟨e, h1, h2⟩ := ih
    refine ⟨e, .plain ?_ h1, fun he => by rw [h2 he]⟩
    unfold pathSpecial at hc; unfold Special IsSep
    simp at hc; grind
  | esc _ ih =>
    obtain ⟨e, h1, h2⟩ := ih
    exact ⟨true, .esc h1, by simp⟩

theorem EscapedAs.matches {k p : Bytes} (h : EscapedAs k p) : ∀ s, MatchesE Eq p s ↔ s = k := by
  induction h with
  | nil =>
    intro s
    constructor
    · intro h; cases h; rfl
    · rintro rfl; exact .nil
  | @plain c k p hc _ ih =>
    have hs : c ≠ c! '*' ∧ c ≠ c! '?' ∧ c ≠ c! '\\' := by unfold pathSpecial at hc; simp at hc; grind
    intro s
    constructor
    · intro h
      cases h with
      | star => exact absurd rfl hs.1
      | any => exact absurd rfl hs.2.1
      | esc => exact absurd rfl hs.2.2
      | plain _ _ _ h => rw [(ih _).1 h]
    · rintro rfl; exact .plain hs.1 hs.2.1 hs.2.2 ((ih _).2 rfl)
  | @esc c k p _ ih =>
    intro s
    constructor
    · intro h
      cases h with
      | esc he h => rw [(ih _).1 h, he]
      | plain a b c h => exact absurd rfl c
    · rintro rfl; exact .esc rfl ((ih _).2 rfl)

theorem EscapedAs.noQuestion {k p : Bytes} (h : EscapedAs k p) (hk : c! '?' ∉ k) : escapesQuestion p = false := by
  induction h with
  | nil => rfl
  | @plain c k p hc _ ih =>
    have hs : c ≠ c! '\\' := by unfold pathSpecial at hc; simp at hc; grind
    have := ih (fun h => hk (List.mem_cons_of_mem _ h))
    cases p with
    | nil => rfl
    | cons d p => unfold escapesQuestion; rw [if_neg hs]; exact this
  | @esc c k p _ ih =>
    have := ih (fun h => hk (List.mem_cons_of_mem _ h))
    unfold escapesQuestion
    simp only [if_true, this, Bool.or_false, decide_eq_false_iff_not]
    rintro rfl; exact hk (by simp)

theorem escapeKey_as (k : Bytes) : EscapedAs k (escapeKey k) := by
  induction k with
  | nil => exact .nil
  | cons c k ih =>
    unfold escapeKey at ih ⊢
    rw [List.flatMap_cons]
    split
    · exact .esc ih
    · rename_i h; rw [not_or] at h; exact .plain h.1 ih

theorem escapeKey_first (k : Bytes) : PlainFirst (escapeKey k) := by
  cases k with
  | nil => trivial
  | cons c k =>
    unfold escapeKey
    rw [List.flatMap_cons]
    split
    · show c! '\\' ≠ _ ∧ _; decide
    · rename_i h
      rw [not_or] at h
      have := h.2
      unfold pathStart at this
      simp at this
      show c ≠ _ ∧ _
      grind

theorem escapeKey_head (k : Bytes) : ∀ c ∈ (escapeKey k).head?, c ∉ pathStart := by
  cases k with
  | nil => simp [escapeKey]
  | cons c k =>
    unfold escapeKey
    rw [List.flatMap_cons]
    split
    · simp; decide
    · rename_i h; rw [not_or] at h; simpa using h.2

theorem compBody_plain {k : Bytes} {e p : Bool} (h : CompBody k e p) (he : e = false) (hp : p = false) : EscapedAs k k := by
  induction h with
  | nil => exact .nil
  | esc => cases he
  | wild => cases hp
  | plain hc _ ih =>
    refine .plain ?_ (ih he hp)
    unfold pathSpecial; unfold Special IsSep at hc; simp; grind

/-- Key comparison in lookups follows the wildcard grammar. -/
theorem keyMatch_iff {k : Bytes} {e p : Bool} (h : CompBody k e p) (hq : escapesQuestion k = false) (sep : UInt8) (rest s : Bytes) (n : Nat := 0) :
    pKeyMatch s ⟨k, e, p, sep, n, rest⟩ = true ↔ MatchesE Eq k s := by
  unfold pKeyMatch
  split
  · exact (pm_iff k s).trans (codeEsc_iff hq)
  · rename_i hn
    simp at hn
    obtain ⟨rfl, rfl⟩ := hn
    rw [EscapedAs.matches (compBody_plain h rfl rfl), decide_eq_true_iff]

/-! ### One component -/

/-- A component that ends the path. -/
structure OneComp (path : Bytes) (p : Path) : Prop where
  next : pNext path = p
  sep : p.sep = 0
  modi : p.isModifier = false
  multi : p.isMultipath = false
  lines : linesPrefix path = (path, false)

theorem oneComp {k : Bytes} {e p : Bool} (h : CompBody k e p) (hf : PlainFirst k) : OneComp k ⟨k, e, p, 0, 0, []⟩ := by
  have hn := pNext_comp h hf (t := []) (sep := 0) (rest := []) ⟨rfl, rfl⟩
  rw [List.append_nil] at hn
  obtain ⟨m1, m2⟩ := isModifier_comp hf e p 0 []
  refine ⟨hn, rfl, m1, m2, ?_⟩
  cases k with
  | nil => rfl
  | cons c k =>
    have hd : c ≠ c! '.' := by
      cases h with
      | esc => decide
      | wild h => rcases h with rfl | rfl <;> decide
      | plain h => intro hcc; subst hcc; exact h (by unfold Special IsSep; decide)
    unfold linesPrefix
    split
    · rename_i heq
      simp only [List.cons.injEq] at heq
      rw [if_neg (by rw [← heq.1]; simp [hd])]
    · rfl

theorem OneComp.get_cont {path : Bytes} {p : Path} (h : OneComp path p) {v doc : Bytes} (hc : IsCont v) (hp : Padded v doc) :
    ∃ q L, Follow q ∧ get doc path = (gCont get L p (v ++ q) >>= Gjson.finish) := by
  obtain ⟨w1, w2, h1, h2, rfl⟩ := hp
  refine ⟨w2, (w1 ++ (v ++ w2)).length, Follow.ws' h2, ?_⟩
  rw [get_start h.lines (by rw [h.next]; exact ⟨h.modi, h.multi⟩), gStart_ws _ _ _ h1, gStart_cont _ _ _ hc, h.next]

theorem OneComp.dives {path : Bytes} {p : Path} (h : OneComp path p) : p.dives = false := by
  unfold Path.dives; rw [h.sep]; simp

theorem OneComp.finish {path : Bytes} {p : Path} (h : OneComp path p) (v : Value) : finish (v, p) = .ok v := by
  unfold Gjson.finish Path.more; simp only; rw [h.sep]; rfl

theorem OneComp.hit {path : Bytes} {p : Path} (h : OneComp path p) {t doc kl s v : Bytes} {before after : List (Bytes × Bytes)}
    (ho : IsObject t (before ++ (kl, v) :: after)) (hd : Padded t doc) (hs : KeyIs kl s) (hm : pKeyMatch s p = true)
    (hb : ∀ m ∈ before, ∃ s, KeyIs m.1 s ∧ pKeyMatch s p = false) :
    ∃ w, get doc path = .ok w ∧ SameAsText w v := by
  obtain ⟨q, L, _, h2⟩ := h.get_cont (IsObject.isCont ho) hd
  obtain ⟨ms, a1, a2, a3, _, a5⟩ := gCont_obj get L p (q := q) ho
  rw [h2, a5]
  obtain ⟨hv, i, a, m, q', x1, x2, x3⟩ := gObjLoop_hit (fun v =>
        if p.dives then gCont get L (pNext p.extra) v else .ok (Value.default, p)) L p (r := q) hs hm a1 a2 hb a3
  rw [x3, if_neg (by rw [h.dives]; simp)]
  exact ⟨_, h.finish _, leaf_sameAsText hv _⟩

theorem OneComp.miss {path : Bytes} {p : Path} (h : OneComp path p) {t doc : Bytes} {kvs : List (Bytes × Bytes)}
    (ho : IsObject t kvs) (hd : Padded t doc) (hb : ∀ m ∈ kvs, ∃ s, KeyIs m.1 s ∧ pKeyMatch s p = false) :
    get doc path = .ok Value.default := by
  obtain ⟨q, L, _, h2⟩ := h.get_cont (IsObject.isCont ho) hd
  obtain ⟨ms, a1, a2, a3, _, a5⟩ := gCont_obj get L p (q := q) ho
  rw [h2, a5]
  rw [gObjLoop_miss _ _ _ a1 a2]
  · exact h.finish _
  · intro m hm
    have : (m.key, m.val) ∈ kvs := by rw [← a3]; exact List.mem_map_of_mem hm
    exact hb _ this

theorem keyDenotes_keyIs {kl s : Bytes} (h : KeyDenotes OddPlane kl s) : KeyIs kl s := by
  obtain ⟨b, rfl, hd⟩ := h
  rw [keyIs_lit hd.strBody, decodes_odd hd]

theorem Resolves.mono {D D' : Bytes → Bytes → Prop} (hD : ∀ a b, D a b → D' a b) {t r : Bytes} {ks : List Bytes}
    (h : Resolves D t ks r) : Resolves D' t ks r := by
  induction h with
  | here => exact .here
  | key ho hb hk _ ih =>
    exact .key ho (fun m hm => by obtain ⟨s, h1, h2⟩ := hb m hm; exact ⟨s, hD _ _ h1, h2⟩) (hD _ _ hk) ih
  | index ha hi hl hv _ ih => exact .index ha hi hl hv ih

end Gjson
