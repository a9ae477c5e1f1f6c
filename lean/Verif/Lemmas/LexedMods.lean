import Verif.Lemmas.LexedGet
import Verif.Lemmas.Ink
import Verif.Lemmas.SizeMods
/-
The modifiers other than `@pretty` keep texts of whole tokens.
-/
namespace Gjson
open Spec

variable {Q : Bytes → Prop}

/-! ### Elements -/

/-- An element that was found in a text of whole tokens. -/
structure Elt (Q : Bytes → Prop) (x : Value) : Prop where
  owned : x.owned = []
  toks : InTokens Q x.slice
  cont : x.kind = .array ∨ x.kind = .object → ∃ o y k m, x.slice = o :: (y ++ [k]) ∧ (o = c! '{' ∨ o = c! '[') ∧
    (x.kind = .array → o = c! '[') ∧ k ∈ b!",:]}" ∧ Lexed Q true y m

theorem Elt.json {x : Value} (h : Elt Q x) : x.json = x.slice := json_of_owned h.owned

theorem elt_default : Elt Q Value.default := ⟨rfl, inTokens_nil, fun h => absurd h (by decide)⟩

theorem elt_tok {a e : Bool} {s : Bytes} (h : Lexed Q a s e) (i : Nat) (hx : (tokVal i (leafTok s).1).exists = true) :
    Elt Q (tokVal i (leafTok s).1) := by
  have h0 := tokVal_lexed h i
  have ho : (tokVal i (leafTok s).1).owned = [] := by cases (leafTok s).1 <;> simp [tokVal, Value.default]
  refine ⟨ho, by rwa [json_of_owned ho] at h0, ?_⟩
  intro hk
  cases s with
  | nil => simp [leafTok, tokVal, Value.exists, Value.default, Value.json] at hx
  | cons c r =>
    rw [leafTok.eq_def] at hk hx ⊢
    simp only at hk hx ⊢
    have es : ∀ f b, ¬ ((tokVal i (some (b, escBit f ||| INFO_STRING))).kind = .array ∨ (tokVal i (some (b, escBit f ||| INFO_STRING))).kind = .object) := by
      intro f b
      simp only [tokVal]
      rw [mkVal_kind, (escBit_str f).2.2]
      decide
    split at hk
    · rename_i hc
      exfalso
      split at hk
      · rename_i hq
        rw [if_pos hc, hq] at hx
        simp [tokVal] at hx
      · exact es _ _ hk
    · rename_i hc
      rw [if_neg hc] at hx ⊢
      split at hk
      · rename_i hc2
        rw [if_pos hc2] at hx ⊢
        obtain ⟨_, hl⟩ := h.bracket hc2
        cases hs : sq 1 false r with
        | none => rw [hs] at hx; simp [tokVal] at hx
        | some z =>
          obtain ⟨b, q⟩ := z
          rw [hs] at hx hk
          simp only at hx hk ⊢
          obtain ⟨y, k, m, h1, h2, h3, h4, h5⟩ := sq_lexed hl (Nat.le_refl _) hs
          refine ⟨c, y, k, m, by simp [tokVal, h1], hc2, ?_, h4, h3⟩
          intro hka
          rcases hc2 with rfl | rfl
          · simp only [tokVal, mkVal_kind] at hka
            exact absurd hka (by decide)
          · rfl
      · exfalso
        split at hk
        · simp only [tokVal] at hk
          rw [mkVal_kind, kind_numFlags (numFlags_mem (signBit_mem c))] at hk
          exact absurd hk (by decide)
        · repeat' split at hk
          all_goals first
            | exact absurd hk (by decide)
            | (simp only [tokVal, mkVal_kind] at hk; exact absurd hk (by decide))

theorem toks_elt (i : Nat) (s : Bytes) : ∀ {a e : Bool}, Lexed Q a s e → ∀ v ∈ toks i s, Elt Q v := by
  fun_induction toks i s with
  | case1 => intro a e _ v hv; simp at hv
  | case2 i c r hc ih =>
    intro a e h
    rcases hc with hc | hc
    · exact ih (h.blank hc).2
    · exact ih (h.mark (by rcases hc with rfl | rfl <;> decide))
  | case3 i c r h1 h2 => intro a e _ v hv; simp at hv
  | case4 i c r h1 h2 h3 h4 ih =>
    intro a e h v hv
    rcases List.mem_cons.1 hv with rfl | hv
    · exact elt_tok h i h3
    · obtain ⟨e', h'⟩ := (leafTok_lexed h).1
      exact ih h' v hv
  | case5 => intro a e _ v hv; simp at hv

/-- Where the next value is. -/
theorem toks_next (i : Nat) (s : Bytes) : ∀ {a e : Bool} {v : Value} {t : List Value}, Lexed Q a s e → toks i s = v :: t →
    ∃ w s' m, s = w ++ (v.slice ++ s') ∧ v.index = some (i + w.length) ∧ Lexed Q a w true ∧ Lexed Q true v.slice m ∧ Lexed Q m s' e ∧
      t = toks (i + w.length + v.slice.length) s' := by
  fun_induction toks i s with
  | case1 => intro a e v t _ h; simp at h
  | case2 i c r hc ih =>
    intro a e v t h hv
    rcases hc with hc | hc
    · obtain ⟨h1, h2⟩ := h.blank hc
      obtain ⟨w, s', m, g1, g2, g3, g4, g5, g6⟩ := ih h2 hv
      refine ⟨c :: w, s', m, by rw [g1]; rfl, by rw [g2, List.length_cons]; congr 1; omega, .ws h1 g3, g4, g5, ?_⟩
      rw [g6, List.length_cons]; congr 1; omega
    · have hm : c ∈ b!",:]}" := by rcases hc with rfl | rfl <;> decide
      obtain ⟨w, s', m, g1, g2, g3, g4, g5, g6⟩ := ih (h.mark hm) hv
      refine ⟨c :: w, s', m, by rw [g1]; rfl, by rw [g2, List.length_cons]; congr 1; omega, .sep hm g3, g4, g5, ?_⟩
      rw [g6, List.length_cons]; congr 1; omega
  | case3 i c r h1 h2 => intro a e v t _ h; simp at h
  | case4 i c r h1 h2 h3 h4 ih =>
    intro a e v t h hv
    simp only [List.cons.injEq] at hv
    obtain ⟨rfl, rfl⟩ := hv
    obtain ⟨p1, p2, p3, p4⟩ := tok_part (i := i) (s := c :: r) (by simp) h3
    cases ho : (leafTok (c :: r)).1 with
    | none => rw [ho] at h3; simp [tokVal, Value.exists, Value.default, Value.json] at h3
    | some x =>
      obtain ⟨b, info⟩ := x
      have hsl : (tokVal i (some (b, info))).slice = b := by simp [tokVal]
      rw [ho, hsl] at p3 p4
      obtain ⟨ha, m, g1, g2, g3⟩ := (leafTok_lexed h).2 b info ho (by intro hb; rw [hb] at p3; simp at p3)
      subst ha
      refine ⟨[], (leafTok (c :: r)).2, m, by rw [hsl]; exact g3, by rw [ho] at p1; simpa using p1, .nil, by rw [hsl]; exact g1, g2, ?_⟩
      rw [hsl]
      congr 1
      simp only [List.length_nil]
      omega
  | case5 => intro a e v t _ h; simp at h

/-- A key and its value: the text from the one to the end of the other. -/
theorem toks_pair {json : Bytes} {e : Bool} : ∀ (n : Nat) {l : List Value} {i : Nat} {s : Bytes} {a : Bool}, l.length < n → At json i s → Lexed Q a s e → toks i s = l →
    ∀ p ∈ pairUp l, ∃ k j, p.1.index = some k ∧ p.2.index = some j ∧ ∀ b, slice json k (j + p.2.slice.length) = .ok b → InTokens Q b
  | 0, _, _, _, _, h, _, _, _ => by omega
  | n + 1, [], _, _, _, _, _, _, _ => by intro p hp; simp [pairUp] at hp
  | n + 1, [_], _, _, _, _, _, _, _ => by intro p hp; simp [pairUp] at hp
  | n + 1, u :: v :: t, i, s, a, hn, hat, h, hl => by
    intro p hp
    obtain ⟨w, s1, m1, g1, g2, g3, g4, g5, g6⟩ := toks_next i s h hl
    obtain ⟨w', s2, m2, f1, f2, f3, f4, f5, f6⟩ := toks_next _ s1 g5 g6.symm
    subst g1
    have at1 := hat.append
    rw [f1] at at1
    have at2 : At json (i + w.length + u.slice.length + w'.length + v.slice.length) s2 := at1.append.append.append
    unfold pairUp at hp
    rcases List.mem_cons.1 hp with rfl | hp
    · refine ⟨_, _, g2, f2, ?_⟩
      intro b hb
      have at3 : At json (i + w.length) ((u.slice ++ (w' ++ v.slice)) ++ s2) := by simpa using at1
      rw [at3.slice' (by simp; omega)] at hb
      cases hb
      exact ⟨m2, g4.append (f3.append f4)⟩
    · exact toks_pair n (by simp at hn; omega) at2 f5 f6.symm p hp

/-- An element, and the text where it is said to be. -/
theorem toks_placed_lexed {json : Bytes} {e : Bool} : ∀ (n : Nat) {l : List Value} {i : Nat} {s : Bytes} {a : Bool}, l.length < n → At json i s → Lexed Q a s e → toks i s = l →
    ∀ p ∈ l, ∃ j, p.index = some j ∧ ∀ b, slice json j (j + p.slice.length) = .ok b → InTokens Q b
  | 0, _, _, _, _, h, _, _, _ => by omega
  | n + 1, [], _, _, _, _, _, _, _ => by intro p hp; simp at hp
  | n + 1, u :: t, i, s, a, hn, hat, h, hl => by
    intro p hp
    obtain ⟨w, s1, m1, g1, g2, g3, g4, g5, g6⟩ := toks_next i s h hl
    subst g1
    have at1 := hat.append
    rcases List.mem_cons.1 hp with rfl | hp
    · refine ⟨_, g2, ?_⟩
      intro b hb
      rw [at1.slice' rfl] at hb
      cases hb
      exact ⟨m1, g4⟩
    · exact toks_placed_lexed n (by simp at hn; omega) at1.append g5 g6.symm p hp

/-- What `each` keeps on a text of whole tokens. -/
theorem each_lexed {σ : Type} {v : Value} {f : σ → Value → Value → Res (σ × Bool)} {P : σ → Prop} {st st' : σ}
    (hk : v.kind = .object ∨ v.kind = .array) {c : UInt8} {r : Bytes} (hj : v.json = c :: r) (hc : c = c! '{' ∨ c = c! '[') (hl : InTokens Q v.json)
    (hf : ∀ k x, Elt Q k → Elt Q x → ∀ st y, P st → f st k x = .ok y → P y.1) (hs : P st) (h : v.each f st = .ok st') : P st' := by
  have he : v.exists = true := by unfold Value.exists; rw [hj]; simp
  rw [each_run he hk] at h
  obtain ⟨e, hl⟩ := hl
  rw [hj] at hl
  have hp : ∀ x ∈ eachToks 0 false v.json, Elt Q x := by
    unfold eachToks
    rw [if_neg (by decide), hj]
    exact toks_elt _ _ (hl.bracket hc).2
  refine runFold_inv _ _ _ (fun p hm st x hst hx => ?_) hs h
  have : Elt Q p.1 ∧ Elt Q p.2 := by
    unfold eachPairs at hm
    split at hm
    · exact pairUp_all hp p hm
    · obtain ⟨x, h1, rfl⟩ := List.mem_map.1 hm
      exact ⟨elt_default, hp x h1⟩
  exact hf p.1 p.2 this.1 this.2 st x hst hx

/-! ### Putting texts together -/

theorem joinComma_lexed : ∀ {l : List Bytes}, (∀ s ∈ l, InTokens Q s) → InTokens Q (joinComma l)
  | [], _ => inTokens_nil
  | [s], h => h s (by simp)
  | s :: t :: r, h => by
    unfold joinComma
    obtain ⟨e, h1⟩ := h s (by simp)
    obtain ⟨e', h2⟩ := joinComma_lexed (l := t :: r) fun x hx => h x (by simp [hx])
    exact ⟨e', (h1.append (lexed_sep (by decide))).append h2⟩

theorem boxed_lexed {o k : UInt8} {b : Bytes} (ho : o ∈ b!"[{") (hk : k ∈ b!",:]}") (h : InTokens Q b) : InTokens Q (o :: (b ++ [k])) := by
  obtain ⟨e, h⟩ := h
  exact ⟨true, .opn ho (h.append (lexed_sep hk))⟩

theorem unwrap_boxed {o k : UInt8} {y : Bytes} (ho : o = c! '{' ∨ o = c! '[') (hk : k ∈ b!",:]}") : unwrap (o :: (y ++ [k])) = y := by
  have h1 : ¬ o ≤ c! ' ' := by rcases ho with rfl | rfl <;> decide
  have h2 : ¬ k ≤ c! ' ' := by
    have : ∀ k ∈ b!",:]}", ¬ k ≤ c! ' ' := by decide
    exact this k hk
  have e1 : dropBlank (o :: (y ++ [k])) = o :: (y ++ [k]) := by unfold dropBlank; rw [if_neg h1]
  have e2 : (dropBlank (o :: (y ++ [k])).reverse).reverse = o :: (y ++ [k]) := by
    rw [show (o :: (y ++ [k])).reverse = k :: (o :: y).reverse by simp]
    unfold dropBlank
    rw [if_neg h2]
    simp
  unfold unwrap
  simp only
  rw [e1, e2]
  cases hy : y ++ [k] with
  | nil => simp at hy
  | cons d t =>
    simp only
    rw [if_pos (by rcases ho with rfl | rfl <;> simp), ← hy]
    unfold sub
    simp

theorem Elt.unwrap {x : Value} (h : Elt Q x) (hk : x.kind = .array ∨ x.kind = .object) : ∃ m, Lexed Q true (Gjson.unwrap x.slice) m := by
  obtain ⟨o, y, k, m, h1, h2, _, h4, h5⟩ := h.cont hk
  rw [h1, unwrap_boxed h2 h4]
  exact ⟨m, h5⟩

theorem parse_lexed {j : Bytes} {v : Value} (hj : InTokens Q j) (h : parse j = .ok v) :
    InTokens Q v.json ∧ v.json = v.slice ∧ (v.kind = .array → ∃ r, v.json = c! '[' :: r) ∧ (v.kind = .object → ∃ r, v.json = c! '{' :: r) := by
  rw [parse_eq] at h
  cases h
  obtain ⟨e, hj⟩ := hj
  refine ⟨pParse_lexed 0 hj, ?_⟩
  generalize 0 = i
  generalize true = a at hj
  induction j generalizing i a with
  | nil => unfold pParse; exact ⟨rfl, fun h => absurd h (by decide), fun h => absurd h (by decide)⟩
  | cons c r ih =>
    unfold pParse
    split
    · rename_i hc
      exact ih (i + 1) a (hj.blank hc).2
    split
    · rename_i hc
      subst hc
      refine ⟨by simp, fun h => ?_, fun h => ⟨r, by simp⟩⟩
      rw [mkVal_kind] at h
      exact absurd h (by decide)
    split
    · rename_i hc
      subst hc
      refine ⟨by simp, fun h => ⟨r, by simp⟩, fun h => ?_⟩
      rw [mkVal_kind] at h
      exact absurd h (by decide)
    split
    · rename_i h1 h2 h3
      have ho : (tokVal i (leafTok (c :: r)).1).owned = [] := by cases (leafTok (c :: r)).1 <;> simp [tokVal, Value.default]
      refine ⟨json_of_owned ho, ?_⟩
      have key : ¬ ((tokVal i (leafTok (c :: r)).1).kind = .array ∨ (tokVal i (leafTok (c :: r)).1).kind = .object) := by
        intro hk
        by_cases hx : (tokVal i (leafTok (c :: r)).1).exists = true
        · obtain ⟨o, y, k, m, g1, g2, _⟩ := (elt_tok hj i hx).cont hk
          rcases leafTok_split (s := c :: r) (by simp) with ⟨t, info, f1, f2, f3⟩ | ⟨_, f2⟩
          · rw [f1] at g1
            simp only [tokVal, mkVal_slice] at g1
            rw [g1] at f3
            simp only [List.cons_append, List.cons.injEq] at f3
            rw [← f3.1] at g2
            rcases g2 with g2 | g2
            · exact h1 g2
            · exact h2 g2
          · rw [f2 i] at hx; exact absurd hx (by decide)
        · rcases leafTok_split (s := c :: r) (by simp) with ⟨t, info, f1, f2, f3⟩ | ⟨f1, _⟩
          · rw [f1] at hx
            simp only [tokVal, mkVal_exists] at hx
            cases t with
            | nil => exact f2 rfl
            | cons _ _ => simp at hx
          · rw [leafTok.eq_def] at hk
            simp only at hk
            rw [if_neg (by grind : ¬ (c = c! '{' ∨ c = c! '['))] at hk
            split at hk
            · split at hk
              · simp only [tokVal, mkVal_kind] at hk; exact absurd hk (by decide)
              · simp only [tokVal, mkVal_kind] at hk
                rw [(escBit_str _).2.2] at hk
                exact absurd hk (by decide)
            · split at hk
              · simp only [tokVal] at hk
                rw [mkVal_kind, kind_numFlags (numFlags_mem (signBit_mem c))] at hk
                exact absurd hk (by decide)
              · repeat' split at hk
                all_goals first
                  | exact absurd hk (by decide)
                  | (simp only [tokVal, mkVal_kind] at hk; exact absurd hk (by decide))
      exact ⟨fun h => absurd (.inl h) key, fun h => absurd (.inr h) key⟩
    · exact ⟨rfl, fun h => absurd h (by decide), fun h => absurd h (by decide)⟩

/-! ### The modifiers -/

theorem modReverse_lexed {j out : Bytes} (hj : InTokens Q j) (h : modReverse j = .ok out) : InTokens Q out := by
  unfold modReverse at h
  obtain ⟨res, h1, h⟩ := bind_eq_ok.1 h
  obtain ⟨hr, hjs, hka, hko⟩ := parse_lexed hj h1
  simp only at h
  split at h
  · rename_i hk
    obtain ⟨r, hjr⟩ := hko hk
    obtain ⟨l, h2, h⟩ := bind_eq_ok.1 h
    cases h
    have : ∀ s ∈ l, InTokens Q s := by
      rw [each_run (by unfold Value.exists; rw [hjr]; simp) (.inl hk)] at h2
      refine runFold_inv (P := fun l : List Bytes => ∀ s ∈ l, InTokens Q s) _ _ _ (fun p hm st y hst hy => ?_) (by simp) h2
      unfold eachPairs at hm
      rw [if_pos hk] at hm
      obtain ⟨e, hl⟩ := hr
      have hl' := hl
      rw [hjr] at hl'
      have at1 : At res.json 1 r := by rw [hjr]; exact (At.zero _).cons
      have e1 : eachToks 0 false res.json = toks 1 r := by
        unfold eachToks
        rw [if_neg (by decide), hjr]
        simp
      rw [e1] at hm
      obtain ⟨k, i, g1, g2, g3⟩ := toks_pair _ (Nat.lt_succ_self _) at1 (hl'.bracket (.inl rfl)).2 rfl p hm
      unfold unwrapIndex at hy
      rw [g1, g2] at hy
      simp only [ok_bind] at hy
      obtain ⟨b, g4, hy⟩ := bind_eq_ok.1 hy
      cases hy
      intro t ht
      rcases List.mem_append.1 ht with ht | ht
      · exact hst t ht
      · simp at ht; subst ht; exact g3 t (by rw [hjs]; exact g4)
    have := boxed_lexed (o := c! '{') (k := c! '}') (by decide) (by decide) (joinComma_lexed (l := l.reverse) (by simpa using this))
    simpa using this
  · rename_i hk
    obtain ⟨r, hjr⟩ := hka hk
    obtain ⟨l, h2, h⟩ := bind_eq_ok.1 h
    cases h
    have : ∀ s ∈ l, InTokens Q s := by
      have hex : res.exists = true := by unfold Value.exists; rw [hjr]; simp
      rw [each_run hex (.inr hk)] at h2
      refine runFold_inv (P := fun l : List Bytes => ∀ s ∈ l, InTokens Q s) _ _ _ (fun p hm st y hst hy => ?_) (by simp) h2
      unfold eachPairs at hm
      rw [if_neg (by rw [hk]; decide)] at hm
      obtain ⟨x, hx, rfl⟩ := List.mem_map.1 hm
      obtain ⟨e, hl⟩ := hr
      have hl' := hl
      rw [hjr] at hl'
      have at1 : At res.json 1 r := by rw [hjr]; exact (At.zero _).cons
      have e1 : eachToks 0 false res.json = toks 1 r := by
        unfold eachToks
        rw [if_neg (by decide), hjr]
        simp
      rw [e1] at hx
      obtain ⟨i, g2, g3⟩ := toks_placed_lexed _ (Nat.lt_succ_self _) at1 (hl'.bracket (.inr rfl)).2 rfl x hx
      unfold unwrapIndex at hy
      rw [g2] at hy
      simp only [ok_bind] at hy
      obtain ⟨b, g4, hy⟩ := bind_eq_ok.1 hy
      cases hy
      intro t ht
      rcases List.mem_append.1 ht with ht | ht
      · exact hst t ht
      · simp at ht; subst ht; exact g3 t (by rw [hjs]; exact g4)
    have := boxed_lexed (o := c! '[') (k := c! ']') (by decide) (by decide) (joinComma_lexed (l := l.reverse) (by simpa using this))
    simpa using this
  · cases h
    rw [← hjs]; exact hr

/-- A text of whole tokens in brackets. -/
def Boxed (Q : Bytes → Prop) (o k : UInt8) (s : Bytes) : Prop := ∃ y m, s = o :: (y ++ [k]) ∧ Lexed Q true y m

/-- What a list looks like while it is being written. -/
def Writing (Q : Bytes → Prop) (o : UInt8) (st : Bytes × Nat) : Prop := ∃ y m, st.1 = o :: y ∧ Lexed Q true y m ∧ (st.2 = 0 → y = [])

theorem Writing.start {o : UInt8} : Writing Q o ([o], 0) := ⟨[], true, rfl, .nil, fun _ => rfl⟩

theorem Writing.add {o : UInt8} {st : Bytes × Nat} (h : Writing Q o st) {raw : Bytes} {m : Bool} (hr : Lexed Q true raw m) :
    Writing Q o ((if st.2 > 0 then st.1 ++ [c! ','] else st.1) ++ raw, st.2 + 1) := by
  obtain ⟨y, m', h1, h2, h3⟩ := h
  split
  · refine ⟨y ++ [c! ','] ++ raw, m, by simp [h1], (h2.append (lexed_sep (by decide))).append hr, by simp⟩
  · have := h3 (by omega)
    subst this
    refine ⟨raw, m, by simp [h1], hr, by simp⟩

theorem Writing.close {o k : UInt8} {st : Bytes × Nat} (h : Writing Q o st) : Boxed Q o k (st.1 ++ [k]) := by
  obtain ⟨y, m, h1, h2, _⟩ := h
  exact ⟨y, m, by rw [h1]; rfl, h2⟩

theorem Boxed.inTokens {o k : UInt8} {s : Bytes} (ho : o ∈ b!"[{") (hk : k ∈ b!",:]}") (h : Boxed Q o k s) : InTokens Q s := by
  obtain ⟨y, m, rfl, h⟩ := h
  exact boxed_lexed ho hk ⟨m, h⟩

theorem flattenN_lexed {arg : Bytes} : ∀ (n : Nat) {j out : Bytes}, InTokens Q j → modFlattenN get n j arg = .ok out →
    (out = j ∧ ∀ r, j ≠ c! '[' :: r) ∨ Boxed Q (c! '[') (c! ']') out
  | 0, _, _, _, h => by simp [modFlattenN, outOfFuel] at h
  | n + 1, j, out, hj, h => by
    unfold modFlattenN at h
    obtain ⟨res, h1, h⟩ := bind_eq_ok.1 h
    obtain ⟨hr, hs, hka, _⟩ := parse_lexed hj h1
    split at h
    · rename_i hk
      cases h
      refine .inl ⟨rfl, fun r hr' => hk ?_⟩
      rw [parse_eq, hr'] at h1
      cases h1
      unfold pParse
      rw [if_neg (by decide), if_neg (by decide), if_pos rfl, mkVal_kind]
      decide
    · rename_i hk
      have hk : res.kind = .array := by simpa using hk
      obtain ⟨r, hjr⟩ := hka hk
      obtain ⟨d, _, h⟩ := bind_eq_ok.1 h
      obtain ⟨deep, _, h⟩ := bind_eq_ok.1 h
      obtain ⟨⟨o, m⟩, h2, h⟩ := bind_eq_ok.1 h
      cases h
      right
      refine Writing.close (st := (o, m)) ?_
      refine each_lexed (P := Writing Q (c! '[')) (.inr hk) hjr (.inr rfl) hr ?_ Writing.start h2
      intro k x _ hx st y hst hy
      have hraw : ∀ raw, (∃ m, Lexed Q true raw m) → (if raw.length > 0 then
          (.ok (((if st.2 > 0 then st.1 ++ [c! ','] else st.1) ++ raw, st.2 + 1), true) : Res ((Bytes × Nat) × Bool)) else .ok (st, true)) = .ok y →
          Writing Q (c! '[') y.1 := by
        intro raw ⟨m, hr⟩ hy
        split at hy
        · cases hy; exact hst.add hr
        · cases hy; exact hst
      simp only [ok_bind] at hy
      split at hy
      · rename_i hxk
        split at hy
        · obtain ⟨inner, h4, hy⟩ := bind_eq_ok.1 hy
          refine hraw _ ?_ hy
          rw [hx.json] at h4
          rcases flattenN_lexed n hx.toks h4 with ⟨_, h5⟩ | ⟨y', m', rfl, h6⟩
          · obtain ⟨o', y', k', m', g1, _, g3, _⟩ := hx.cont (.inl hxk)
            rw [g3 hxk] at g1
            exact absurd g1 (h5 _)
          · rw [unwrap_boxed (.inr rfl) (by decide)]
            exact ⟨m', h6⟩
        · refine hraw _ ?_ hy
          rw [hx.json]
          exact hx.unwrap (.inl hxk)
      · exact hraw _ hx.toks hy

theorem joinMembers_lexed {kv : List (Bytes × Bytes)} (hkv : ∀ p ∈ kv, InTokens Q p.2) : ∀ {ks : List (Bytes × Bytes)} {l : List Bytes},
    (∀ p ∈ ks, InTokens Q p.1) → joinMembers kv ks = .ok l → ∀ s ∈ l, InTokens Q s
  | [], l, _, h, s, hs => by cases h; simp at hs
  | (raw, k) :: r, l, hk, h, s, hs => by
    unfold joinMembers at h
    split at h
    · simp [rpanic] at h
    · rename_i v hv
      obtain ⟨rest, h1, h⟩ := bind_eq_ok.1 h
      cases h
      rcases List.mem_cons.1 hs with rfl | hs
      · obtain ⟨e, he⟩ := hk (raw, k) (by simp)
        obtain ⟨e', he'⟩ := mapGet_all (Q := InTokens Q) hkv hv
        exact ⟨e', (he.append (lexed_sep (by decide))).append he'⟩
      · exact joinMembers_lexed hkv (fun p hp => hk p (by simp [hp])) h1 s hs

theorem modJoin_lexed {arg j out : Bytes} (hj : InTokens Q j) (h : modJoin get j arg = .ok out) : InTokens Q out := by
  unfold modJoin at h
  obtain ⟨res, h1, h⟩ := bind_eq_ok.1 h
  obtain ⟨hr, hs, hka, _⟩ := parse_lexed hj h1
  split at h
  · cases h; exact hj
  · rename_i hk
    have hk : res.kind = .array := by simpa using hk
    obtain ⟨r, hjr⟩ := hka hk
    obtain ⟨p, _, h⟩ := bind_eq_ok.1 h
    obtain ⟨pr, _, h⟩ := bind_eq_ok.1 h
    split at h
    · obtain ⟨⟨o, m⟩, h2, h⟩ := bind_eq_ok.1 h
      cases h
      refine Boxed.inTokens (by decide) (by decide) (Writing.close (o := c! '{') (k := c! '}') (st := (o, m)) ?_)
      refine each_lexed (P := Writing Q (c! '{')) (.inr hk) hjr (.inr rfl) hr ?_ Writing.start h2
      intro k x _ hx st y hst hy
      split at hy
      · cases hy; exact hst
      · rename_i hxk
        cases hy
        obtain ⟨m, hm⟩ := hx.unwrap (.inr (by simpa using hxk))
        exact hst.add hm
    · obtain ⟨⟨keys, kv⟩, h2, h⟩ := bind_eq_ok.1 h
      obtain ⟨l, h3, h⟩ := bind_eq_ok.1 h
      cases h
      have := each_lexed (P := fun st : List (Bytes × Bytes) × List (Bytes × Bytes) => (∀ p ∈ st.1, InTokens Q p.1) ∧ ∀ p ∈ st.2, InTokens Q p.2)
        (.inr hk) hjr (.inr rfl) hr (by
          intro k x _ hx st y hst hy
          split at hy
          · cases hy; exact hst
          · rename_i hxk
            have hxk : x.kind = .object := by simpa using hxk
            obtain ⟨st2, h4, hy⟩ := bind_eq_ok.1 hy
            cases hy
            obtain ⟨o', y', k', m', g1, g2, _⟩ := hx.cont (.inr hxk)
            refine each_lexed (Q := Q) (P := fun st : List (Bytes × Bytes) × List (Bytes × Bytes) => (∀ p ∈ st.1, InTokens Q p.1) ∧ ∀ p ∈ st.2, InTokens Q p.2)
              (.inl hxk) (by rw [hx.json]; exact g1) g2 (by rw [hx.json]; exact hx.toks) ?_ hst h4
            intro k' x' hk' hx' st y hst hy
            obtain ⟨s, _, hy⟩ := bind_eq_ok.1 hy
            cases hy
            refine ⟨?_, mapInsert_all (Q := InTokens Q) (by rw [hx'.json]; exact hx'.toks) hst.2⟩
            simp only
            split
            · intro p hp
              rcases List.mem_append.1 hp with hp | hp
              · exact hst.1 p hp
              · simp at hp; subst hp; rw [hk'.json]; exact hk'.toks
            · exact hst.1) ⟨by simp, by simp⟩ h2
      have := boxed_lexed (o := c! '{') (k := c! '}') (by decide) (by decide) (joinComma_lexed (joinMembers_lexed this.2 this.1 h3))
      simpa using this

theorem pUgly_lexed {a e : Bool} {s : Bytes} (h : Lexed Q a s e) : Lexed Q a (pUgly s) e := by
  induction h with
  | nil => rw [pUgly_nil]; exact .nil
  | ws hc _ ih =>
    rw [pUgly_skip (by unfold IsWs at hc; grind)]
    exact ih
  | sep hc _ ih =>
    simp only [List.mem_cons, List.not_mem_nil, or_false] at hc
    rw [pUgly_keep (by grind) (by grind)]
    exact .sep (by simpa using hc) ih
  | opn hc _ ih =>
    simp only [List.mem_cons, List.not_mem_nil, or_false] at hc
    rw [pUgly_keep (by grind) (by grind)]
    exact .opn (by simpa using hc) ih
  | @num e t r ht hq _ ih =>
    rw [show pUgly (t ++ r) = t ++ pUgly r from ?_]
    · exact .num ht hq ih
    · refine pUgly_plain (fun c hc => ?_) r
      have := numLit_numCh ht c hc
      unfold NumCh at this
      grind (splits := 30)
  | @word e t r ht hq _ ih =>
    rw [show pUgly (t ++ r) = t ++ pUgly r from ?_]
    · exact .word ht hq ih
    · simp only [List.mem_cons, List.not_mem_nil, or_false] at ht
      rcases ht with rfl | rfl | rfl <;> exact pUgly_plain (by decide) r
  | @str e t r ht hq _ ih =>
    rw [show pUgly (t ++ r) = t ++ pUgly r from ?_]
    · exact .str ht hq ih
    · exact pUgly_str ht r

end Gjson
