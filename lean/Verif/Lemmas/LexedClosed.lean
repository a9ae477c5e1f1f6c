import Verif.Lemmas.LexedPretty
import Verif.Lemmas.RulesMods
import Verif.Lemmas.Utf8
/-
Every path keeps texts of whole tokens; what this says of scalar results; JSON texts are
made of whole tokens.
-/
namespace Gjson
open Spec

variable {Q : Bytes → Prop}

/-! ### Every path -/

/-- What is asked of the tokens and of the paths. -/
structure TokenRules (Q P : Bytes → Prop) : Prop where
  count : ∀ n, Q (numeral n)
  key : ∀ {k}, P k → Q (Spec.quoted k)
  cut : ∀ {p q}, P p → Cut p q → P q
  under : P b!"_"
  plain : ∀ {p}, P p → ¬ AsksText p

theorem commaSep_lexed {l : List Bytes} (h : ∀ s ∈ l, InTokens Q s) : InTokens Q (commaSep l) := by
  rw [← joinComma_eq]; exact joinComma_lexed h

theorem natDec_num (n : Nat) : NumLit (numeral n) :=
  ⟨[], numeral n, [], [], by simp, .inl rfl, (numeral_spec n).2.2.2, .inl rfl, .inl rfl⟩

theorem closes_tokens {P : Bytes → Prop} (H : TokenRules Q P) : Closes (InTokens Q) P where
  nil := inTokens_nil
  blank h hc := by
    obtain ⟨e, h⟩ := h
    exact ⟨e, (h.blank hc).2⟩
  elems h hl := eachToks_lexed h (hl.imp id fun h => ⟨_, h, .inr rfl⟩)
  obj h hd hx := by
    obtain ⟨e, h⟩ := h
    exact gObjLoop_lexed _ _ (h.bracket (.inl rfl)).2.inTokens.amid hd _ hx
  count n := by
    rw [natDec_eq]
    exact ⟨false, lexed_num (natDec_num n) (H.count n)⟩
  array h := boxed_lexed (by decide) (by decide) (commaSep_lexed h)
  object {ms} h := by
    refine boxed_lexed (by decide) (by decide) (commaSep_lexed ?_)
    intro s hs
    obtain ⟨m, h1, rfl⟩ := List.mem_map.1 hs
    obtain ⟨m, h2, rfl⟩ := List.mem_map.1 h1
    obtain ⟨e, h3⟩ := (h m h2).2
    refine ⟨e, Lexed.append (m := true) (lexed_str (strLit_escape _) ?_) (.sep (by decide) h3)⟩
    show Q (jsonString m.1)
    rw [jsonString_quoted]
    exact H.key (h m h2).1
  cut := H.cut
  under := H.under
  mod {path j out} h hj hm ho := by
    have key : InTokens Q out := by
      unfold modApply at ho
      split at ho
      · cases ho; exact hj
      split at ho
      · exact modReverse_lexed hj ho
      split at ho
      · unfold modUgly at ho
        rw [ugly_eq] at ho
        cases ho
        obtain ⟨e, hj⟩ := hj
        exact ⟨e, pUgly_lexed hj⟩
      split at ho
      · rename_i hn
        have hno : ∀ w, w ∈ [b!"\"indent\"", b!"\"prefix\"", b!"\\"] → ¬ w <:+: modArg (pNext path) := by
          rintro w hw ⟨x, y, hxy⟩
          rcases modArg_infix (pNext_ok path) hm with h1 | h1
          · rw [h1] at hxy
            simp at hxy
            rw [hxy.2.1] at hw
            exact absurd hw (by decide)
          · have h2 := h1.trans (pNext_ok path).comp.isInfix
            rw [hn] at h2
            refine H.plain h (InOrder.mono h2 ⟨[], b!"@pretty:", _, by simp, rfl, x, w, y, hw, ?_, trivial⟩)
            show modArg (pNext path) = _
            rw [← hxy, List.append_assoc]
        obtain ⟨o, h1, h2, h3⟩ := modPretty_plain (fun hb => hno b!"\\" (by decide) (by
          obtain ⟨x, y, e⟩ := List.append_of_mem hb
          exact ⟨x, y, by rw [e]; simp⟩)) (hno _ (by decide)) (hno _ (by decide)) ho
        exact prettyOptions_lexed hj (by rw [h2]; intro c hc; simp at hc) h3 h1
      split at ho
      · unfold modValid at ho
        obtain ⟨b, _, ho⟩ := bind_eq_ok.1 ho
        split at ho
        · cases ho; exact hj
        · cases ho; exact inTokens_nil
      split at ho
      · rcases flattenN_lexed _ hj ho with ⟨rfl, _⟩ | h
        · exact hj
        · exact h.inTokens (by decide) (by decide)
      split at ho
      · exact modJoin_lexed hj ho
      · cases ho; exact inTokens_nil
    obtain ⟨e, key⟩ := key
    exact pParse_lexed 0 key

/-! ### Scalars -/

theorem qStr_more : ∀ {s b q : Bytes} {f : Bool}, qStr s = some (b, f, q) → ∀ r, qStr (s ++ r) = some (b, f, q ++ r) := by
  intro s
  fun_induction qStr s with
  | case1 => intro b q f h; simp at h
  | case2 r => intro b q f h r'; cases h; rw [List.cons_append, qStr.eq_def]; simp
  | case3 => intro b q f h; simp at h
  | case4 e r' h1 ih =>
    intro b q f h r
    rw [List.cons_append, List.cons_append, qStr.eq_def]
    simp only
    rw [if_neg h1]
    cases hq : qStr r' with
    | none => rw [hq] at h; simp [setEsc, push1] at h
    | some x =>
      obtain ⟨b', f', q'⟩ := x
      rw [hq] at h
      simp only [setEsc, push1] at h
      cases h
      simp [ih hq r, setEsc, push1]
  | case5 c r' h1 h2 ih =>
    intro b q f h r
    rw [List.cons_append, qStr.eq_def]
    simp only
    rw [if_neg h1, if_neg h2]
    cases hq : qStr r' with
    | none => rw [hq] at h; simp [push1] at h
    | some x =>
      obtain ⟨b', f', q'⟩ := x
      rw [hq] at h
      simp only [push1] at h
      cases h
      simp [ih hq r, push1]

/-- The text of a value goes with its kind. -/
def FitsKind (Q : Bytes → Prop) (v : Value) : Prop :=
  match v.kind with
  | .string => StrLit v.json ∧ Q v.json
  | .number => NumLit v.json ∧ Q v.json
  | .true => v.json = b!"true" ∧ Q v.json
  | .false => v.json = b!"false" ∧ Q v.json
  | .null => v.json = b!"null" ∧ Q v.json
  | .array => ∃ r, v.json = c! '[' :: r
  | .object => ∃ r, v.json = c! '{' :: r

theorem word_cut {c : UInt8} {r : Bytes} {n : Nat} (h : InTokens Q (c :: r.take n)) (hc : c = c! 't' ∨ c = c! 'f' ∨ c = c! 'n') :
    ∃ t, c :: t ∈ [b!"true", b!"false", b!"null"] ∧ Q (c :: t) ∧ t <+: r.take n := by
  obtain ⟨e, h⟩ := h
  obtain ⟨_, t, q, h1, h2, h3, _⟩ := h.name (by grind) (by simp; grind) (by grind) (by unfold NumStart; grind) (by grind)
  exact ⟨t, h2, h3, ⟨q, h1.symm⟩⟩

theorem tok_fits {i : Nat} {s : Bytes} (hx : (tokVal i (leafTok s).1).exists = true) (h : InTokens Q (tokVal i (leafTok s).1).json) :
    FitsKind Q (tokVal i (leafTok s).1) := by
  cases s with
  | nil => exact absurd hx (by simp [leafTok, tokVal, Value.exists, Value.default, Value.json])
  | cons c r =>
    rw [leafTok.eq_def] at h hx ⊢
    simp only at h hx ⊢
    split at h
    · rename_i hc
      rw [if_pos hc] at hx ⊢
      cases hq : qStr r with
      | none => rw [hq] at hx; simp [tokVal] at hx
      | some x =>
        obtain ⟨b, f, q⟩ := x
        rw [hq] at hx h
        simp only [tokVal, mkVal_json] at h hx ⊢
        unfold FitsKind
        rw [mkVal_kind, (escBit_str f).2.2, mkVal_json]
        subst hc
        obtain ⟨e, h⟩ := h
        obtain ⟨_, x, y, h1, h2, h3, _, h5, _⟩ := h.quote
        have h6 := qStr_more h5 q
        rw [← qStr_append hq, hq] at h6
        simp only [Option.some.injEq, Prod.mk.injEq] at h6
        rw [h6.1]
        exact ⟨⟨x, h2, rfl⟩, h3⟩
    rename_i hc
    rw [if_neg hc] at hx ⊢
    split at h
    · rename_i hc2
      rw [if_pos hc2] at hx ⊢
      cases hs : sq 1 false r with
      | none => rw [hs] at hx; simp [tokVal] at hx
      | some z =>
        simp only [tokVal]
        unfold FitsKind
        rw [mkVal_kind, mkVal_json]
        rcases hc2 with rfl | rfl
        · exact ⟨_, rfl⟩
        · exact ⟨_, rfl⟩
    rename_i hc2
    rw [if_neg hc2] at hx ⊢
    split at h
    · rename_i hc3
      rw [if_pos hc3] at hx ⊢
      simp only [tokVal] at h ⊢
      rw [mkVal_json] at h
      unfold FitsKind
      rw [mkVal_kind, kind_numFlags (numFlags_mem (signBit_mem c)), mkVal_json]
      obtain ⟨e, h⟩ := h
      obtain ⟨_, t, q, h1, h2, h3, h4, _⟩ := h.number hc3
      have : q = [] := by
        cases q with
        | nil => rfl
        | cons d q =>
          exact absurd (numTake_numCh (r := r) (by rw [h1]; simp)) (closed_numCh h4.closed d (by simp))
      subst this
      simp only [List.append_nil] at h1
      rw [h1]
      exact ⟨h2, h3⟩
    rename_i hc3
    rw [if_neg hc3] at hx ⊢
    have key : ∀ n w, n ≤ r.length → InTokens Q (c :: r.take n) → (c = c! 't' ∨ c = c! 'f' ∨ c = c! 'n') → (∀ t, c :: t ∈ [b!"true", b!"false", b!"null"] → t = w) →
        w.length = n → c :: r.take n = c :: w ∧ Q (c :: r.take n) := by
      intro n w hn h1 h2 h3 h4
      obtain ⟨t, g1, g2, g3⟩ := word_cut h1 h2
      have := h3 t g1
      subst this
      have : t = r.take n := g3.eq_of_length (by simp; omega)
      rw [← this]
      exact ⟨rfl, g2⟩
    split at h
    · rename_i hc4
      subst hc4
      rw [if_pos rfl] at hx ⊢
      split at h
      · rename_i hl; rw [if_pos hl] at hx; exact absurd hx (by simp [tokVal, Value.exists, Value.default, Value.json])
      · rename_i hl
        rw [if_neg hl]
        simp only [tokVal, mkVal_json] at h ⊢
        unfold FitsKind
        rw [mkVal_kind, mkVal_json]
        exact key 3 b!"rue" (by omega) h (.inl rfl) (by intro t ht; have := word_head ht; grind) rfl
    rename_i hc4
    rw [if_neg hc4] at hx ⊢
    split at h
    · rename_i hc5
      subst hc5
      rw [if_pos rfl] at hx ⊢
      split at h
      · rename_i hl; rw [if_pos hl] at hx; exact absurd hx (by simp [tokVal, Value.exists, Value.default, Value.json])
      · rename_i hl
        rw [if_neg hl]
        simp only [tokVal, mkVal_json] at h ⊢
        unfold FitsKind
        rw [mkVal_kind, mkVal_json]
        exact key 4 b!"alse" (by omega) h (.inr (.inl rfl)) (by intro t ht; have := word_head ht; grind) rfl
    rename_i hc5
    rw [if_neg hc5] at hx ⊢
    split at h
    · rename_i hc6
      subst hc6
      rw [if_pos rfl] at hx ⊢
      split at h
      · rename_i hl; rw [if_pos hl] at hx; exact absurd hx (by simp [tokVal, Value.exists, Value.default, Value.json])
      · rename_i hl
        rw [if_neg hl]
        simp only [tokVal, mkVal_json] at h ⊢
        unfold FitsKind
        rw [mkVal_kind, mkVal_json]
        exact key 3 b!"ull" (by omega) h (.inr (.inr rfl)) (by intro t ht; have := word_head ht; grind) rfl
    · rename_i hc6
      rw [if_neg hc6] at hx
      exact absurd hx (by simp [tokVal, Value.exists, Value.default, Value.json])

theorem pParse_fits : ∀ {s : Bytes} {i : Nat}, (pParse i s).exists = true → InTokens Q (pParse i s).json → FitsKind Q (pParse i s)
  | [], i, h, _ => absurd h (by simp [pParse, Value.exists, Value.default, Value.json])
  | c :: r, i, hx, h => by
    unfold pParse at hx h ⊢
    split at hx
    · rename_i c1
      rw [if_pos c1] at h ⊢
      exact pParse_fits hx h
    rename_i c1
    rw [if_neg c1] at h ⊢
    split at hx
    · rename_i c2
      rw [if_pos c2]
      unfold FitsKind
      rw [mkVal_kind, mkVal_json]
      exact ⟨r, by rw [c2]⟩
    rename_i c2
    rw [if_neg c2] at h ⊢
    split at hx
    · rename_i c3
      rw [if_pos c3]
      unfold FitsKind
      rw [mkVal_kind, mkVal_json]
      exact ⟨r, by rw [c3]⟩
    rename_i c3
    rw [if_neg c3] at h ⊢
    split at hx
    · rename_i c4
      rw [if_pos c4] at h ⊢
      exact tok_fits hx h
    · exact absurd hx (by decide)

theorem Prov.fits {v : Value} (hp : Prov v) (hx : v.exists = true) (h : InTokens Q v.json) : FitsKind Q v := by
  induction hp with
  | default => exact absurd hx (by decide)
  | tok i s => exact tok_fits hx h
  | array b => unfold FitsKind; rw [mkOwned_kind, mkOwned_json]; exact ⟨b, rfl⟩
  | object b => unfold FitsKind; rw [mkOwned_kind, mkOwned_json]; exact ⟨b, rfl⟩
  | count n =>
    unfold FitsKind
    rw [mkOwned_kind]
    rw [mkOwned_json] at h ⊢
    rw [natDec_eq] at h ⊢
    refine ⟨natDec_num n, ?_⟩
    cases hn : numeral n with
    | nil => exact absurd hn (numeral_spec n).1
    | cons c r =>
      rw [hn] at h
      obtain ⟨e, h⟩ := h
      have hd : ∀ x ∈ c :: r, IsDigit x := by rw [← hn]; exact (numeral_spec n).2.1
      obtain ⟨_, t, q, h1, h2, h3, h4, _⟩ := h.number (by have := hd c (by simp); unfold IsDigit at this; unfold NumStart; grind)
      have : q = [] := by
        cases q with
        | nil => rfl
        | cons d q =>
          refine absurd ?_ (closed_numCh h4.closed d (by simp))
          have := hd d (by rw [h1]; simp)
          unfold IsDigit at this
          unfold NumCh
          grind
      subst this
      simp only [List.append_nil] at h1
      rw [h1]; exact h3
  | modifier i s => exact pParse_fits hx h
  | @owned v hp ih =>
    have hs := sameValue_owned hp.oneText
    have he : v.exists = true := by unfold Value.exists at hx ⊢; rwa [hs.json] at hx
    have := ih he (by rwa [hs.json] at h)
    unfold FitsKind at this ⊢
    rwa [hs.json, hs.kind]
  | @moved i v hp ih =>
    have hs := sameValue_addIndex i v
    have he : v.exists = true := by unfold Value.exists at hx ⊢; rwa [hs.json] at hx
    have := ih he (by rwa [hs.json] at h)
    unfold FitsKind at this ⊢
    rwa [hs.json, hs.kind]

/-! ### JSON texts -/

theorem elems_lexed {R : Bytes → Prop} : ∀ {es : List Elem}, (∀ e ∈ es, e.Wf) → (∀ e ∈ es, InTokens R e.val) → InTokens R (elemsText es)
  | [], _, _ => inTokens_nil
  | [x], hw, h => by
    obtain ⟨e, h⟩ := h x (by simp)
    obtain ⟨w1, w2⟩ := hw x (by simp)
    exact ⟨e, (lexed_ws w1).append (h.append (lexed_ws w2))⟩
  | x :: y :: r, hw, h => by
    obtain ⟨e, h1⟩ := h x (by simp)
    obtain ⟨w1, w2⟩ := hw x (by simp)
    obtain ⟨e', h2⟩ := elems_lexed (es := y :: r) (fun e he => hw e (by simp [he])) (fun e he => h e (by simp [he]))
    exact ⟨e', ((lexed_ws w1).append (h1.append (lexed_ws w2))).append (.sep (by decide) h2)⟩

theorem member_lexed {R : Bytes → Prop} {m : Member} (hw : m.Wf) (hk : R m.key) (h : InTokens R m.val) : InTokens R m.text := by
  obtain ⟨w1, w2, w3, w4, w5⟩ := hw
  obtain ⟨e, h⟩ := h
  exact ⟨e, (lexed_ws w1).append ((lexed_str w2 hk).append ((lexed_ws w3).append (.sep (by decide) ((lexed_ws w4).append (h.append (lexed_ws w5))))))⟩

theorem members_lexed {R : Bytes → Prop} : ∀ {ms : List Member}, (∀ m ∈ ms, m.Wf) → (∀ m ∈ ms, R m.key) → (∀ m ∈ ms, InTokens R m.val) → InTokens R (membersText ms)
  | [], _, _, _ => inTokens_nil
  | [x], hw, hk, h => member_lexed (hw x (by simp)) (hk x (by simp)) (h x (by simp))
  | x :: y :: r, hw, hk, h => by
    obtain ⟨e, h1⟩ := member_lexed (hw x (by simp)) (hk x (by simp)) (h x (by simp))
    obtain ⟨e', h2⟩ := members_lexed (ms := y :: r) (fun e he => hw e (by simp [he])) (fun e he => hk e (by simp [he])) (fun e he => h e (by simp [he]))
    exact ⟨e', h1.append (.sep (by decide) h2)⟩

theorem value_lexed {t : Bytes} (h : IsValue t) : InTokens (fun _ => True) t := by
  induction h with
  | null => exact ⟨true, lexed_word (by decide) trivial⟩
  | true => exact ⟨true, lexed_word (by decide) trivial⟩
  | false => exact ⟨true, lexed_word (by decide) trivial⟩
  | str h => exact ⟨true, lexed_str h trivial⟩
  | num h => exact ⟨false, lexed_num h trivial⟩
  | arrEmpty hw => exact boxed_lexed (by decide) (by decide) ⟨true, lexed_ws hw⟩
  | arr _ hw _ ih => exact boxed_lexed (by decide) (by decide) (elems_lexed hw ih)
  | objEmpty hw => exact boxed_lexed (by decide) (by decide) ⟨true, lexed_ws hw⟩
  | obj _ hw _ ih => exact boxed_lexed (by decide) (by decide) (members_lexed hw (fun _ _ => trivial) ih)

theorem jsonText_lexed {t : Bytes} (h : JsonText t) : InTokens (fun _ => True) t := by
  obtain ⟨w1, v, w2, rfl, u1, u2, hv⟩ := h
  obtain ⟨e, hv⟩ := value_lexed hv
  exact ⟨e, (lexed_ws u1).append (hv.append (lexed_ws u2))⟩

/-- After a value that is no number the next one may start. -/
theorem value_lexed_open {t : Bytes} (h : IsValue t) (hk : kindOf t ≠ .number) : Lexed (fun _ => True) true t true := by
  have box : ∀ {o k : UInt8} {b : Bytes}, o ∈ b!"[{" → k ∈ b!",:]}" → InTokens (fun _ => True) b → Lexed (fun _ => True) true (o :: (b ++ [k])) true := by
    intro o k b ho hk ⟨e, h⟩
    exact .opn ho (h.append (lexed_sep hk))
  cases h with
  | null => exact lexed_word (by decide) trivial
  | true => exact lexed_word (by decide) trivial
  | false => exact lexed_word (by decide) trivial
  | str h => exact lexed_str h trivial
  | num h => exact absurd (kindOf_num h) hk
  | arrEmpty hw => exact box (by decide) (by decide) ⟨true, lexed_ws hw⟩
  | arr _ hw h => exact box (by decide) (by decide) (elems_lexed hw fun e he => value_lexed (h e he))
  | objEmpty hw => exact box (by decide) (by decide) ⟨true, lexed_ws hw⟩
  | obj _ hw h => exact box (by decide) (by decide) (members_lexed hw (fun _ _ => trivial) fun e he => value_lexed (h e he))

theorem lines_lexed {doc : Bytes} {vs : List Bytes} (h : JsonLines doc vs) (hk : ∀ v ∈ vs, kindOf v ≠ .number) : InTokens (fun _ => True) doc := by
  induction h with
  | nil hw => exact ⟨true, lexed_ws hw⟩
  | last hw hv =>
    obtain ⟨e, hv⟩ := value_lexed hv
    exact ⟨e, (lexed_ws hw).append hv⟩
  | cons hw hv hc _ ih =>
    obtain ⟨e, h⟩ := ih fun v hv => hk v (by simp [hv])
    exact ⟨e, (lexed_ws hw).append ((value_lexed_open hv (hk _ (by simp))).append (.ws hc h))⟩

/-- A text of whole tokens is made of its tokens. -/
theorem lexed_own {text : Bytes} {R : Bytes → Prop} {a e : Bool} {s : Bytes} (h : Lexed R a s e) :
    ∀ pre, text = pre ++ s → Lexed (fun _ => True) true pre a → Lexed (TokenOf text) a s e := by
  have all : ∀ {a e : Bool} {s : Bytes}, Lexed R a s e → Lexed (fun _ => True) a s e := by
    intro a e s h
    induction h with
    | nil => exact .nil
    | ws hc _ ih => exact .ws hc ih
    | sep hc _ ih => exact .sep hc ih
    | opn hc _ ih => exact .opn hc ih
    | num h _ _ ih => exact .num h trivial ih
    | word h _ _ ih => exact .word h trivial ih
    | str h _ _ ih => exact .str h trivial ih
  induction h with
  | nil => intro _ _ _; exact .nil
  | @ws _ _ c _ hc _ ih =>
    intro pre hp h
    exact .ws hc (ih (pre ++ [c]) (by rw [hp]; simp) (h.append (.ws hc .nil)))
  | @sep _ _ c _ hc _ ih =>
    intro pre hp h
    exact .sep hc (ih (pre ++ [c]) (by rw [hp]; simp) (h.append (.sep hc .nil)))
  | @opn _ c _ hc _ ih =>
    intro pre hp h
    exact .opn hc (ih (pre ++ [c]) (by rw [hp]; simp) (h.append (.opn hc .nil)))
  | @num _ t r ht _ hr ih =>
    intro pre hp h
    exact .num ht ⟨.inr (.inl ht), pre, r, false, _, hp, h, all hr, fun _ => rfl⟩
      (ih (pre ++ t) (by rw [hp]; simp) (h.append (lexed_num ht trivial)))
  | @word _ t r ht _ hr ih =>
    intro pre hp h
    refine .word ht ⟨.inr (.inr ht), pre, r, true, _, hp, h, all hr, fun hn => ?_⟩
      (ih (pre ++ t) (by rw [hp]; simp) (h.append (lexed_word ht trivial)))
    exfalso
    simp only [List.mem_cons, List.not_mem_nil, or_false] at ht
    rcases ht with rfl | rfl | rfl
    · exact absurd (numLit_numCh hn (c! 't') (by decide)) (by decide)
    · exact absurd (numLit_numCh hn (c! 'f') (by decide)) (by decide)
    · exact absurd (numLit_numCh hn (c! 'n') (by decide)) (by decide)
  | @str _ t r ht _ hr ih =>
    intro pre hp h
    refine .str ht ⟨.inl ht, pre, r, true, _, hp, h, all hr, fun hn => ?_⟩
      (ih (pre ++ t) (by rw [hp]; simp) (h.append (lexed_str ht trivial)))
    exfalso
    obtain ⟨b, _, rfl⟩ := ht
    exact absurd (numLit_numCh hn (c! '"') (by simp)) (by decide)

theorem inTokens_own {text : Bytes} {R : Bytes → Prop} (h : InTokens R text) : InTokens (TokenOf text) text := by
  obtain ⟨e, h⟩ := h
  exact ⟨e, lexed_own h [] rfl .nil⟩

theorem Spec.Lexed.mono {Q R : Bytes → Prop} (hm : ∀ t, IsToken t → Q t → R t) {a e : Bool} {s : Bytes} (h : Lexed Q a s e) : Lexed R a s e := by
  induction h with
  | nil => exact .nil
  | ws hc _ ih => exact .ws hc ih
  | sep hc _ ih => exact .sep hc ih
  | opn hc _ ih => exact .opn hc ih
  | num h hq _ ih => exact .num h (hm _ (.inr (.inl h)) hq) ih
  | word h hq _ ih => exact .word h (hm _ (.inr (.inr h)) hq) ih
  | str h hq _ ih => exact .str h (hm _ (.inl h) hq) ih

theorem Spec.InTokens.mono {Q R : Bytes → Prop} (hm : ∀ t, IsToken t → Q t → R t) {s : Bytes} (h : InTokens Q s) : InTokens R s := by
  obtain ⟨e, h⟩ := h
  exact ⟨e, h.mono hm⟩

/-! ### UTF-8 -/

theorem token_value {t : Bytes} (h : IsToken t) : IsValue t := by
  rcases h with h | h | h
  · exact .str h
  · exact .num h
  · simp only [List.mem_cons, List.not_mem_nil, or_false] at h
    rcases h with rfl | rfl | rfl
    · exact .true
    · exact .false
    · exact .null

theorem tokenOf_utf8 {text t : Bytes} (hu : IsUtf8 text) (h : TokenOf text t) : IsUtf8 t := by
  obtain ⟨h1, pre, post, _, _, rfl, _⟩ := h
  exact hu.part (token_value h1) ⟨pre, post, by simp⟩

theorem lexed_utf8 {a e : Bool} {s : Bytes} (h : Lexed IsUtf8 a s e) : IsUtf8 s := by
  induction h with
  | nil => exact .nil
  | ws hc _ ih => exact (IsUtf8.ascii (by unfold IsWs at hc; grind)).append ih
  | sep hc _ ih => exact (IsUtf8.ascii (by simp only [List.mem_cons, List.not_mem_nil, or_false] at hc; grind)).append ih
  | opn hc _ ih => exact (IsUtf8.ascii (by simp only [List.mem_cons, List.not_mem_nil, or_false] at hc; grind)).append ih
  | num _ hq _ ih => exact hq.append ih
  | word _ hq _ ih => exact hq.append ih
  | str _ hq _ ih => exact hq.append ih

/-! ### The tokens of results -/

theorem asksText_cut {p q : Bytes} (h : ¬ AsksText p) (hc : Cut p q) : ¬ AsksText q := fun hq => h (InOrder.mono hc.infix hq)

theorem rules_written (text path : Bytes) : TokenRules (Written text path) (fun k => (k <:+: path ∨ k = b!"_") ∧ ¬ AsksText k) where
  count n := .inr (.inr ⟨n, rfl⟩)
  key h := .inr (.inl ⟨_, h.1, rfl⟩)
  cut {p q} h hc := by
    refine ⟨?_, asksText_cut h.2 hc⟩
    rcases h.1 with h1 | rfl
    · exact .inl (hc.infix.trans h1)
    · have : q = [] ∨ q = b!"_" := by
        have h2 := hc.infix
        have hl := h2.length_le
        cases q with
        | nil => exact .inl rfl
        | cons c r =>
          right
          have hr : r.length = 0 := by simp only [List.length_cons, List.length_nil] at hl; omega
          have hr := List.length_eq_zero_iff.1 hr
          subst hr
          have := h2.subset (by simp : c ∈ [c])
          simp at this
          rw [this]
      rcases this with rfl | rfl
      · exact .inl (List.nil_infix)
      · exact .inr rfl
  under := ⟨.inr rfl, by decide⟩
  plain h := h.2

theorem quoted_head (k : Bytes) : (Spec.quoted k).head? = some (c! '"') := rfl

theorem written_str {text path t : Bytes} (h : Written text path t) (hs : StrLit t) :
    TokenOf text t ∨ ∃ k, (k <:+: path ∨ k = b!"_") ∧ t = Spec.quoted k := by
  rcases h with h | h | ⟨n, rfl⟩
  · exact .inl h
  · exact .inr h
  · exfalso
    obtain ⟨b, _, e⟩ := hs
    have := (numeral_spec n).2.1 (c! '"') (by rw [e]; simp)
    exact absurd this (by decide)

theorem written_other {text path t : Bytes} (h : Written text path t) (hs : t.head? ≠ some (c! '"')) :
    TokenOf text t ∨ ∃ n, t = numeral n := by
  rcases h with h | ⟨k, _, rfl⟩ | h
  · exact .inl h
  · exact absurd (quoted_head k) hs
  · exact .inr h

theorem rules_utf8 : TokenRules IsUtf8 (fun k => IsUtf8 k ∧ ¬ AsksText k) where
  count n := by rw [← natDec_eq]; exact natDec_utf8 n
  key h := by rw [← jsonString_quoted]; exact utf8_jsonString h.1
  cut h hc := ⟨h.1.cuts hc, asksText_cut h.2 hc⟩
  under := ⟨by decide +kernel, by decide⟩
  plain h := h.2

end Gjson
