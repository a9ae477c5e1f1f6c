import Verif.SpecTokens
import Verif.Lemmas.Usable
import Verif.Lemmas.Piece
import Verif.Lemmas.Open
/-
Texts of whole tokens: how the scanners cut them.
-/
namespace Gjson
open Spec

variable {Q : Bytes → Prop}

theorem Spec.Lexed.append {a m e : Bool} {s t : Bytes} (h : Lexed Q a s m) (h' : Lexed Q m t e) : Lexed Q a (s ++ t) e := by
  induction h with
  | nil => exact h'
  | ws hc _ ih => exact .ws hc (ih h')
  | sep hc _ ih => exact .sep hc (ih h')
  | opn hc _ ih => exact .opn hc (ih h')
  | num h1 h2 _ ih => rw [List.append_assoc]; exact .num h1 h2 (ih h')
  | word h1 h2 _ ih => rw [List.append_assoc]; exact .word h1 h2 (ih h')
  | str h1 h2 _ ih => rw [List.append_assoc]; exact .str h1 h2 (ih h')

/-- Where no value may start, one may as well be allowed to. -/
theorem Spec.Lexed.up {e : Bool} : ∀ {a : Bool} {s : Bytes}, Lexed Q a s e → ∃ e', Lexed Q true s e'
  | _, _, .nil => ⟨true, .nil⟩
  | _, _, .ws hc h => by obtain ⟨e', h'⟩ := h.up; exact ⟨e', .ws hc h'⟩
  | _, _, .sep hc h => ⟨e, .sep hc h⟩
  | _, _, .opn hc h => ⟨e, .opn hc h⟩
  | _, _, .num h1 h2 h => ⟨e, .num h1 h2 h⟩
  | _, _, .word h1 h2 h => ⟨e, .word h1 h2 h⟩
  | _, _, .str h1 h2 h => ⟨e, .str h1 h2 h⟩

theorem lexed_ws {a : Bool} {w : Bytes} (h : Ws w) : Lexed Q a w a := by
  induction w with
  | nil => exact .nil
  | cons c w ih => exact .ws (h c (by simp)) (ih fun x hx => h x (by simp [hx]))

theorem lexed_sep {a : Bool} {c : UInt8} (h : c ∈ b!",:]}") : Lexed Q a [c] true := .sep h .nil

theorem lexed_opn {c : UInt8} (h : c ∈ b!"[{") : Lexed Q true [c] true := .opn h .nil

theorem lexed_num {t : Bytes} (h : NumLit t) (hq : Q t) : Lexed Q true t false := by
  have := Lexed.num (e := false) (r := []) h hq .nil
  simpa using this

theorem lexed_word {t : Bytes} (h : t ∈ [b!"true", b!"false", b!"null"]) (hq : Q t) : Lexed Q true t true := by
  have := Lexed.word (e := true) (r := []) h hq .nil
  simpa using this

theorem lexed_str {t : Bytes} (h : StrLit t) (hq : Q t) : Lexed Q true t true := by
  have := Lexed.str (e := true) (r := []) h hq .nil
  simpa using this

/-! ### What a text of tokens starts with -/

/-- The first token of a text of tokens. -/
inductive Heads (Q : Bytes → Prop) (a e : Bool) (c : UInt8) (r : Bytes) : Prop
  | ws : IsWs c → Lexed Q a r e → Heads Q a e c r
  | sep : c ∈ b!",:]}" → Lexed Q true r e → Heads Q a e c r
  | opn : a = true → c ∈ b!"[{" → Lexed Q true r e → Heads Q a e c r
  | num (t q : Bytes) : a = true → NumStart c → r = t ++ q → NumLit (c :: t) → Q (c :: t) → Lexed Q false q e → Heads Q a e c r
  | word (t q : Bytes) : a = true → c :: t ∈ [b!"true", b!"false", b!"null"] → r = t ++ q → Q (c :: t) → Lexed Q true q e → Heads Q a e c r
  | str (b q : Bytes) : a = true → c = c! '"' → r = b ++ c! '"' :: q → StrBody b → Q (c! '"' :: (b ++ [c! '"'])) → Lexed Q true q e → Heads Q a e c r

theorem Spec.Lexed.heads {a e : Bool} {c : UInt8} {r : Bytes} (h : Lexed Q a (c :: r) e) : Heads Q a e c r := by
  generalize hs : c :: r = s at h
  cases h with
  | nil => simp at hs
  | ws hc h => cases hs; exact .ws hc h
  | sep hc h => cases hs; exact .sep hc h
  | opn hc h => cases hs; exact .opn rfl hc h
  | @num e t q h1 h2 h =>
    obtain ⟨d, t', rfl, hd⟩ := NumLit.cons h1
    simp only [List.cons_append, List.cons.injEq] at hs
    obtain ⟨rfl, rfl⟩ := hs
    refine .num t' q rfl ?_ rfl h1 h2 h
    unfold NumStart
    unfold IsDigit at hd
    grind
  | @word e t q h1 h2 h =>
    cases t with
    | nil => simp at h1
    | cons d t' =>
      simp only [List.cons_append, List.cons.injEq] at hs
      obtain ⟨rfl, rfl⟩ := hs
      exact .word t' q rfl h1 rfl h2 h
  | @str e t q h1 h2 h =>
    obtain ⟨b, hb, rfl⟩ := h1
    simp only [List.cons_append, List.cons.injEq] at hs
    obtain ⟨rfl, rfl⟩ := hs
    exact .str b q rfl rfl (by simp) hb h2 h

theorem word_head {c : UInt8} {t : Bytes} (h : c :: t ∈ [b!"true", b!"false", b!"null"]) :
    (c = c! 't' ∧ t = b!"rue") ∨ (c = c! 'f' ∧ t = b!"alse") ∨ (c = c! 'n' ∧ t = b!"ull") := by
  simp only [List.mem_cons, List.not_mem_nil, or_false] at h
  rcases h with h | h | h
  · cases h; exact .inl ⟨rfl, rfl⟩
  · cases h; exact .inr (.inl ⟨rfl, rfl⟩)
  · cases h; exact .inr (.inr ⟨rfl, rfl⟩)

/-- After a number stands nothing that could continue it. -/
theorem Spec.Lexed.closed {e : Bool} {q : Bytes} (h : Lexed Q false q e) : ∀ c ∈ q.head?, IsWs c ∨ c ∈ b!",:]}" := by
  cases q with
  | nil => simp
  | cons c r =>
    intro d hd
    simp only [List.head?_cons, Option.mem_def, Option.some.injEq] at hd
    subst hd
    cases h.heads with
    | ws h _ => exact .inl h
    | sep h _ => exact .inr h
    | opn h _ _ => cases h
    | num _ _ h _ _ _ _ _ => cases h
    | word _ _ h _ _ _ _ => cases h
    | str _ _ h _ _ _ _ _ => cases h

theorem closed_numCh {q : Bytes} (h : ∀ c ∈ q.head?, IsWs c ∨ c ∈ b!",:]}") : ∀ c ∈ q.head?, ¬ NumCh c := by
  intro c hc hn
  have := h c hc
  unfold IsWs at this
  unfold NumCh at hn
  simp only [List.mem_cons, List.not_mem_nil, or_false] at this
  grind (splits := 40)

/-- A string at the front. -/
theorem Spec.Lexed.quote {a e : Bool} {r : Bytes} (h : Lexed Q a (c! '"' :: r) e) :
    a = true ∧ ∃ b q, r = b ++ c! '"' :: q ∧ StrBody b ∧ Q (c! '"' :: (b ++ [c! '"'])) ∧ Lexed Q true q e ∧
      qStr r = some (b ++ [c! '"'], decide (c! '\\' ∈ b), q) ∧ sEnd false r = (b ++ [c! '"'], q) := by
  cases h.heads with
  | ws h _ => exact absurd h (by decide)
  | sep h _ => exact absurd h (by decide)
  | opn _ h _ => exact absurd h (by decide)
  | num _ _ _ h _ _ _ _ => exact absurd h (by decide)
  | word _ _ _ h _ _ _ =>
    rcases word_head h with ⟨h, _⟩ | ⟨h, _⟩ | ⟨h, _⟩ <;> exact absurd h (by decide)
  | str b q ha _ hr hb hq hl =>
    subst hr
    have := qStr_body (q := q) hb
    exact ⟨ha, b, q, rfl, hb, hq, hl, this, qStr_sEnd this⟩

/-- A byte that is skipped as whitespace. -/
theorem Spec.Lexed.blank {a e : Bool} {c : UInt8} {r : Bytes} (h : Lexed Q a (c :: r) e) (hc : c ≤ c! ' ') :
    IsWs c ∧ Lexed Q a r e := by
  cases h.heads with
  | ws h h' => exact ⟨h, h'⟩
  | sep h _ => simp only [List.mem_cons, List.not_mem_nil, or_false] at h; grind
  | opn _ h _ => simp only [List.mem_cons, List.not_mem_nil, or_false] at h; grind
  | num _ _ _ h _ _ _ _ => unfold NumStart at h; grind
  | word _ _ _ h _ _ _ =>
    rcases word_head h with ⟨h, _⟩ | ⟨h, _⟩ | ⟨h, _⟩ <;> grind
  | str _ _ _ h _ _ _ _ => grind

/-- A separator or a closing bracket. -/
theorem Spec.Lexed.mark {a e : Bool} {c : UInt8} {r : Bytes} (h : Lexed Q a (c :: r) e) (hc : c ∈ b!",:]}") : Lexed Q true r e := by
  cases h.heads with
  | ws h h' => simp only [List.mem_cons, List.not_mem_nil, or_false] at hc; unfold IsWs at h; grind
  | sep h h' => exact h'
  | opn _ h _ => simp only [List.mem_cons, List.not_mem_nil, or_false] at hc h; grind
  | num _ _ _ h _ _ _ _ => simp only [List.mem_cons, List.not_mem_nil, or_false] at hc; unfold NumStart at h; grind
  | word _ _ _ h _ _ _ =>
    simp only [List.mem_cons, List.not_mem_nil, or_false] at hc
    rcases word_head h with ⟨h, _⟩ | ⟨h, _⟩ | ⟨h, _⟩ <;> grind
  | str _ _ _ h _ _ _ _ => simp only [List.mem_cons, List.not_mem_nil, or_false] at hc; grind

/-- An opening bracket. -/
theorem Spec.Lexed.bracket {a e : Bool} {c : UInt8} {r : Bytes} (h : Lexed Q a (c :: r) e) (hc : c = c! '{' ∨ c = c! '[') :
    a = true ∧ Lexed Q true r e := by
  cases h.heads with
  | ws h h' => unfold IsWs at h; grind
  | sep h h' => simp only [List.mem_cons, List.not_mem_nil, or_false] at h; grind
  | opn ha h h' => exact ⟨ha, h'⟩
  | num _ _ _ h _ _ _ _ => unfold NumStart at h; grind
  | word _ _ _ h _ _ _ =>
    rcases word_head h with ⟨h, _⟩ | ⟨h, _⟩ | ⟨h, _⟩ <;> grind
  | str _ _ _ h _ _ _ _ => grind

/-- A number. -/
theorem Spec.Lexed.number {a e : Bool} {c : UInt8} {r : Bytes} (h : Lexed Q a (c :: r) e) (hc : NumStart c) :
    a = true ∧ ∃ t q, r = t ++ q ∧ NumLit (c :: t) ∧ Q (c :: t) ∧ Lexed Q false q e ∧ numTake r = t ∧ numDrop r = q := by
  cases h.heads with
  | ws h h' => unfold IsWs at h; unfold NumStart at hc; grind
  | sep h h' => simp only [List.mem_cons, List.not_mem_nil, or_false] at h; unfold NumStart at hc; grind
  | opn ha h h' => simp only [List.mem_cons, List.not_mem_nil, or_false] at h; unfold NumStart at hc; grind
  | num t q ha _ hr h1 h2 h3 =>
    subst hr
    have := numTake_ends (t := t) (r := q) (fun x hx => numLit_numCh h1 x (by simp [hx])) (closed_numCh h3.closed)
    exact ⟨ha, t, q, rfl, h1, h2, h3, this.1, this.2⟩
  | word _ _ _ h _ _ _ =>
    unfold NumStart at hc
    rcases word_head h with ⟨h, _⟩ | ⟨h, _⟩ | ⟨h, _⟩ <;> grind
  | str _ _ _ h _ _ _ _ => unfold NumStart at hc; grind

/-- Every other byte is the first of a literal name. -/
theorem Spec.Lexed.name {a e : Bool} {c : UInt8} {r : Bytes} (h : Lexed Q a (c :: r) e) (h1 : ¬ c ≤ c! ' ') (h2 : c ∉ b!",:]}")
    (h3 : ¬ (c = c! '{' ∨ c = c! '[')) (h4 : ¬ NumStart c) (h5 : c ≠ c! '"') :
    a = true ∧ ∃ t q, r = t ++ q ∧ c :: t ∈ [b!"true", b!"false", b!"null"] ∧ Q (c :: t) ∧ Lexed Q true q e := by
  cases h.heads with
  | ws h h' => unfold IsWs at h; grind
  | sep h h' => exact absurd h h2
  | opn ha h h' => simp only [List.mem_cons, List.not_mem_nil, or_false] at h; grind
  | num t q ha h _ _ _ _ => exact absurd h h4
  | word t q ha h hr hq hl => exact ⟨ha, t, q, hr, h, hq, hl⟩
  | str _ _ _ h _ _ _ _ => exact absurd h h5

/-! ### Arrays and objects -/

/-- An array or object that is closed: what is inside, the closing bracket, and what follows. -/
theorem sq_lexed {e : Bool} : ∀ {a : Bool} {s : Bytes}, Lexed Q a s e → ∀ {d : Nat} {b q : Bytes}, 1 ≤ d → sq d false s = some (b, q) →
    ∃ y c m, b = y ++ [c] ∧ CloseTok c ∧ Lexed Q a y m ∧ c ∈ b!",:]}" ∧ Lexed Q true q e := by
  intro a s h
  induction h with
  | nil => intro d b q _ h; simp [sq] at h
  | @ws a e c r hc hl ih =>
    intro d b q hd h
    have hn : ¬ SqTok c := by unfold IsWs at hc; unfold SqTok StrTok OpenTok CloseTok; grind (splits := 30)
    rw [sq_char hn] at h
    cases hs : sq d false r with
    | none => rw [hs] at h; simp at h
    | some x =>
      obtain ⟨b', q'⟩ := x
      rw [hs] at h
      simp at h
      obtain ⟨rfl, rfl⟩ := h
      obtain ⟨y, k, m, h1, h2, h3, h4, h5⟩ := ih hd hs
      exact ⟨c :: y, k, m, by rw [h1]; rfl, h2, .ws hc h3, h4, h5⟩
  | @sep a e c r hc hl ih =>
    intro d b q hd h
    by_cases hk : CloseTok c
    · rw [sq.eq_def] at h
      simp only at h
      rw [if_neg (by unfold CloseTok at hk; grind), if_neg (by unfold CloseTok at hk; unfold OpenTok; grind), if_pos hk] at h
      split at h
      · simp at h
        obtain ⟨rfl, rfl⟩ := h
        exact ⟨[], c, a, rfl, hk, .nil, hc, hl⟩
      · cases hs : sq (d - 1) false r with
        | none => rw [hs] at h; simp at h
        | some x =>
          obtain ⟨b', q'⟩ := x
          rw [hs] at h
          simp at h
          obtain ⟨rfl, rfl⟩ := h
          obtain ⟨y, k, m, h1, h2, h3, h4, h5⟩ := ih (by omega) hs
          exact ⟨c :: y, k, m, by rw [h1]; rfl, h2, .sep hc h3, h4, h5⟩
    · have hn : ¬ SqTok c := by
        simp only [List.mem_cons, List.not_mem_nil, or_false] at hc
        unfold CloseTok at hk
        unfold SqTok StrTok OpenTok CloseTok; grind (splits := 30)
      rw [sq_char hn] at h
      cases hs : sq d false r with
      | none => rw [hs] at h; simp at h
      | some x =>
        obtain ⟨b', q'⟩ := x
        rw [hs] at h
        simp at h
        obtain ⟨rfl, rfl⟩ := h
        obtain ⟨y, k, m, h1, h2, h3, h4, h5⟩ := ih hd hs
        exact ⟨c :: y, k, m, by rw [h1]; rfl, h2, .sep hc h3, h4, h5⟩
  | @opn e c r hc hl ih =>
    intro d b q hd h
    rw [sq.eq_def] at h
    simp only at h
    simp only [List.mem_cons, List.not_mem_nil, or_false] at hc
    rw [if_neg (by grind), if_pos (by unfold OpenTok; grind)] at h
    cases hs : sq (d + 1) false r with
    | none => rw [hs] at h; simp at h
    | some x =>
      obtain ⟨b', q'⟩ := x
      rw [hs] at h
      simp at h
      obtain ⟨rfl, rfl⟩ := h
      obtain ⟨y, k, m, h1, h2, h3, h4, h5⟩ := ih (by omega) hs
      exact ⟨c :: y, k, m, by rw [h1]; rfl, h2, .opn (by simpa using hc) h3, h4, h5⟩
  | @num e t r h1 h2 hl ih =>
    intro d b q hd h
    rw [sq_plain fun c hc => numCh_not_sq (numLit_numCh h1 c hc)] at h
    cases hs : sq d false r with
    | none => rw [hs] at h; simp at h
    | some x =>
      obtain ⟨b', q'⟩ := x
      rw [hs] at h
      simp at h
      obtain ⟨rfl, rfl⟩ := h
      obtain ⟨y, k, m, g1, g2, g3, g4, g5⟩ := ih hd hs
      exact ⟨t ++ y, k, m, by rw [g1]; simp, g2, .num h1 h2 g3, g4, g5⟩
  | @word e t r h1 h2 hl ih =>
    intro d b q hd h
    rw [sq_plain (by
      have : ∀ w ∈ [b!"true", b!"false", b!"null"], ∀ c ∈ w, ¬ SqTok c := by decide
      exact this t h1)] at h
    cases hs : sq d false r with
    | none => rw [hs] at h; simp at h
    | some x =>
      obtain ⟨b', q'⟩ := x
      rw [hs] at h
      simp at h
      obtain ⟨rfl, rfl⟩ := h
      obtain ⟨y, k, m, g1, g2, g3, g4, g5⟩ := ih hd hs
      exact ⟨t ++ y, k, m, by rw [g1]; simp, g2, .word h1 h2 g3, g4, g5⟩
  | @str e t r h1 h2 hl ih =>
    intro d b q hd h
    rw [sq_strLit h1] at h
    cases hs : sq d false r with
    | none => rw [hs] at h; simp at h
    | some x =>
      obtain ⟨b', q'⟩ := x
      rw [hs] at h
      simp at h
      obtain ⟨rfl, rfl⟩ := h
      obtain ⟨y, k, m, g1, g2, g3, g4, g5⟩ := ih hd hs
      exact ⟨t ++ y, k, m, by rw [g1]; simp, g2, .str h1 h2 g3, g4, g5⟩

/-! ### One value -/

/-- A value at the front of a text of tokens is a text of tokens, and so is what follows. -/
theorem leafTok_lexed {a e : Bool} {s : Bytes} (h : Lexed Q a s e) :
    (∃ e', Lexed Q true (leafTok s).2 e') ∧
    ∀ v info, (leafTok s).1 = some (v, info) → v ≠ [] → a = true ∧ ∃ m, Lexed Q true v m ∧ Lexed Q m (leafTok s).2 e ∧ s = v ++ (leafTok s).2 := by
  cases s with
  | nil => exact ⟨⟨true, .nil⟩, by simp [leafTok]⟩
  | cons c r =>
    rw [leafTok.eq_def]
    simp only
    split
    · rename_i hc
      subst hc
      obtain ⟨ha, b, q, hr, hb, hq, hl, h1, _⟩ := h.quote
      rw [h1]
      refine ⟨⟨e, hl⟩, fun v info hv hne => ⟨ha, true, ?_, hl, ?_⟩⟩
      · simp only [Option.some.injEq, Prod.mk.injEq] at hv
        rw [← hv.1]
        exact lexed_str ⟨b, hb, rfl⟩ hq
      · simp only [Option.some.injEq, Prod.mk.injEq] at hv
        rw [← hv.1, hr]
        simp
    split
    · rename_i hc
      obtain ⟨ha, hl⟩ := h.bracket hc
      cases hs : sq 1 false r with
      | none =>
        simp only
        refine ⟨⟨true, .nil⟩, fun v info hv hne => ?_⟩
        simp only [Option.some.injEq, Prod.mk.injEq] at hv
        exact absurd hv.1.symm hne
      | some x =>
        obtain ⟨b, q⟩ := x
        obtain ⟨y, k, m, h1, h2, h3, h4, h5⟩ := sq_lexed hl (Nat.le_refl _) hs
        simp only
        refine ⟨⟨e, h5⟩, fun v info hv hne => ⟨ha, true, ?_, h5, ?_⟩⟩
        · simp only [Option.some.injEq, Prod.mk.injEq] at hv
          rw [← hv.1, h1]
          exact .opn (by rcases hc with rfl | rfl <;> decide) (h3.append (lexed_sep h4))
        · simp only [Option.some.injEq, Prod.mk.injEq] at hv
          rw [← hv.1, (sq_append hs).1]
          rfl
    split
    · rename_i hc
      obtain ⟨ha, t, q, hr, h1, h2, h3, h4, h5⟩ := h.number hc
      rw [h4, h5]
      refine ⟨h3.up, fun v info hv hne => ⟨ha, false, ?_, h3, ?_⟩⟩
      · simp only [Option.some.injEq, Prod.mk.injEq] at hv
        rw [← hv.1]
        exact lexed_num h1 h2
      · simp only [Option.some.injEq, Prod.mk.injEq] at hv
        rw [← hv.1, hr]
        rfl
    rename_i n1 n2 n3
    have name : ∀ w, c! 't' = c ∧ w = b!"rue" ∨ c! 'f' = c ∧ w = b!"alse" ∨ c! 'n' = c ∧ w = b!"ull" →
        a = true ∧ ∃ q, r = w ++ q ∧ c :: w ∈ [b!"true", b!"false", b!"null"] ∧ Q (c :: w) ∧ Lexed Q true q e := by
      intro w hw
      have hcs : c = c! 't' ∨ c = c! 'f' ∨ c = c! 'n' := by
        rcases hw with hw | hw | hw
        · exact .inl hw.1.symm
        · exact .inr (.inl hw.1.symm)
        · exact .inr (.inr hw.1.symm)
      obtain ⟨ha, t, q, h1, h2, h3, h4⟩ := h.name (by rcases hcs with rfl | rfl | rfl <;> decide)
        (by rcases hcs with rfl | rfl | rfl <;> decide) n2 n3 n1
      have : w = t := by
        rcases word_head h2 with ⟨g1, g2⟩ | ⟨g1, g2⟩ | ⟨g1, g2⟩ <;> subst g1 <;> subst g2 <;> rcases hw with ⟨g, rfl⟩ | ⟨g, rfl⟩ | ⟨g, rfl⟩ <;> first | rfl | exact absurd g (by decide)
      subst this
      exact ⟨ha, q, h1, h2, h3, h4⟩
    split
    · rename_i hc
      obtain ⟨ha, q, rfl, h1, h2, h3⟩ := name b!"rue" (.inl ⟨hc.symm, rfl⟩)
      rw [if_neg (by simp)]
      refine ⟨⟨e, by simpa using h3⟩, fun v info hv hne => ⟨ha, true, ?_, by simpa using h3, ?_⟩⟩
      · simp only [Option.some.injEq, Prod.mk.injEq] at hv
        rw [← hv.1]
        exact lexed_word h1 h2
      · simp only [Option.some.injEq, Prod.mk.injEq] at hv
        rw [← hv.1]
        simp
    split
    · rename_i hc
      obtain ⟨ha, q, rfl, h1, h2, h3⟩ := name b!"alse" (.inr (.inl ⟨hc.symm, rfl⟩))
      rw [if_neg (by simp)]
      refine ⟨⟨e, by simpa using h3⟩, fun v info hv hne => ⟨ha, true, ?_, by simpa using h3, ?_⟩⟩
      · simp only [Option.some.injEq, Prod.mk.injEq] at hv
        rw [← hv.1]
        exact lexed_word h1 h2
      · simp only [Option.some.injEq, Prod.mk.injEq] at hv
        rw [← hv.1]
        simp
    split
    · rename_i hc
      obtain ⟨ha, q, rfl, h1, h2, h3⟩ := name b!"ull" (.inr (.inr ⟨hc.symm, rfl⟩))
      rw [if_neg (by simp)]
      refine ⟨⟨e, by simpa using h3⟩, fun v info hv hne => ⟨ha, true, ?_, by simpa using h3, ?_⟩⟩
      · simp only [Option.some.injEq, Prod.mk.injEq] at hv
        rw [← hv.1]
        exact lexed_word h1 h2
      · simp only [Option.some.injEq, Prod.mk.injEq] at hv
        rw [← hv.1]
        simp
    · exact ⟨⟨true, .nil⟩, by simp⟩

end Gjson
