import Verif.Lemmas.At
import Verif.Model.Scan
/-
The scanners (`scan_string`, `scan_squash`, `scan_number`) as functions on
suffixes.
-/
namespace Gjson

/-- Ends or escapes a string. -/
def StrTok (c : UInt8) : Prop := c = c! '"' ∨ c = c! '\\'
instance (c : UInt8) : Decidable (StrTok c) := by unfold StrTok; infer_instance

/-- Opening bracket. -/
def OpenTok (c : UInt8) : Prop := c = c! '{' ∨ c = c! '[' ∨ c = c! '('
instance (c : UInt8) : Decidable (OpenTok c) := by unfold OpenTok; infer_instance

/-- Closing bracket. -/
def CloseTok (c : UInt8) : Prop := c = c! '}' ∨ c = c! ']' ∨ c = c! ')'
instance (c : UInt8) : Decidable (CloseTok c) := by unfold CloseTok; infer_instance

/-- Matters to `scan_squash`. -/
def SqTok (c : UInt8) : Prop := StrTok c ∨ OpenTok c ∨ CloseTok c
instance (c : UInt8) : Decidable (SqTok c) := by unfold SqTok; infer_instance

theorem chtable_cases (c : UInt8) :
    (OpenTok c ∧ chtable c = CHSQUASH ||| CHOPEN) ∨ (CloseTok c ∧ chtable c = CHSQUASH ||| CHCLOSE) ∨
    (c = c! '"' ∧ chtable c = CHSQUASH ||| CHQUOTE ||| CHSTRTOK) ∨
    (c = c! '\\' ∧ chtable c = CHSQUASH ||| CHSTRTOK) ∨ (¬ SqTok c ∧ chtable c = 0) := by
  unfold chtable SqTok OpenTok CloseTok StrTok
  by_cases h1 : c = c! '{' ∨ c = c! '[' ∨ c = c! '('
  · simp [h1]
  · by_cases h2 : c = c! '}' ∨ c = c! ']' ∨ c = c! ')'
    · simp [h1, h2]
    · by_cases h3 : c = c! '"'
      · simp [h3]
      · by_cases h4 : c = c! '\\'
        · simp [h4]
        · simp [h1, h2, h3, h4]

theorem chtable_strtok (c : UInt8) : (chtable c &&& CHSTRTOK = CHSTRTOK) ↔ StrTok c := by
  rcases chtable_cases c with ⟨h, e⟩ | ⟨h, e⟩ | ⟨h, e⟩ | ⟨h, e⟩ | ⟨h, e⟩ <;> rw [e]
  · exact iff_of_false (by decide) (by unfold OpenTok at h; unfold StrTok; grind)
  · exact iff_of_false (by decide) (by unfold CloseTok at h; unfold StrTok; grind)
  · exact iff_of_true (by decide) (.inl h)
  · exact iff_of_true (by decide) (.inr h)
  · exact iff_of_false (by decide) (fun x => h (.inl x))

theorem chtable_squash (c : UInt8) : (chtable c &&& CHSQUASH = CHSQUASH) ↔ SqTok c := by
  rcases chtable_cases c with ⟨h, e⟩ | ⟨h, e⟩ | ⟨h, e⟩ | ⟨h, e⟩ | ⟨h, e⟩ <;> rw [e]
  · exact iff_of_true (by decide) (.inr (.inl h))
  · exact iff_of_true (by decide) (.inr (.inr h))
  · exact iff_of_true (by decide) (.inl (.inl h))
  · exact iff_of_true (by decide) (.inl (.inr h))
  · exact iff_of_false (by decide) h

theorem chtable_open (c : UInt8) : (chtable c &&& CHOPEN = CHOPEN) ↔ OpenTok c := by
  rcases chtable_cases c with ⟨h, e⟩ | ⟨h, e⟩ | ⟨h, e⟩ | ⟨h, e⟩ | ⟨h, e⟩ <;> rw [e]
  · exact iff_of_true (by decide) h
  · exact iff_of_false (by decide) (by unfold CloseTok at h; unfold OpenTok; grind)
  · exact iff_of_false (by decide) (by unfold OpenTok; grind)
  · exact iff_of_false (by decide) (by unfold OpenTok; grind)
  · exact iff_of_false (by decide) (fun x => h (.inr (.inl x)))

theorem chtable_close (c : UInt8) : (chtable c &&& CHCLOSE = CHCLOSE) ↔ CloseTok c := by
  rcases chtable_cases c with ⟨h, e⟩ | ⟨h, e⟩ | ⟨h, e⟩ | ⟨h, e⟩ | ⟨h, e⟩ <;> rw [e]
  · exact iff_of_false (by decide) (by unfold OpenTok at h; unfold CloseTok; grind)
  · exact iff_of_true (by decide) h
  · exact iff_of_false (by decide) (by unfold CloseTok; grind)
  · exact iff_of_false (by decide) (by unfold CloseTok; grind)
  · exact iff_of_false (by decide) (fun x => h (.inr (.inr x)))

/-! ### The token search -/

/-- First byte satisfying `P` at or after position `i` with suffix `s`. -/
def Finds (P : UInt8 → Prop) (json : Bytes) (i : Nat) (s : Bytes) (x : Res (Option UInt8 × Nat)) : Prop :=
  (∃ p c r, s = p ++ c :: r ∧ (∀ x ∈ p, ¬ P x) ∧ P c ∧ x = .ok (some c, i + p.length)) ∨
  ((∀ x ∈ s, ¬ P x) ∧ x = .ok (none, json.length))

section tok
variable {P : UInt8 → Prop} [DecidablePred P] {mask : UInt8} {json : Bytes}

theorem tokWhile1_at (hm : ∀ c, (chtable c &&& mask = mask) ↔ P c) :
    ∀ (n i : Nat) (s : Bytes), At json i s → s.length < n → Finds P json i s (tokWhile1 mask json n i)
  | 0, _, _, _, h => by omega
  | n + 1, i, [], h, _ => by
    have := h.nil
    exact .inr ⟨by simp, by simp [tokWhile1, this]⟩
  | n + 1, i, c :: r, h, hl => by
    unfold tokWhile1
    rw [if_pos h.lt, h.idx]
    simp only [ok_bind]
    by_cases hw : P c
    · rw [if_pos ((hm c).2 hw)]
      exact .inl ⟨[], c, r, rfl, by simp, hw, by simp⟩
    · rw [if_neg ((not_congr (hm c)).2 hw)]
      rcases tokWhile1_at hm n (i + 1) r h.cons (by simp at hl; omega) with
        ⟨w, d, q, h1, h2, h3, h4⟩ | ⟨h1, h2⟩
      · left
        refine ⟨c :: w, d, q, by simp [h1], ?_, h3, ?_⟩
        · intro x hx; simp at hx; rcases hx with rfl | hx; exact hw; exact h2 x hx
        · rw [h4]; simp; omega
      · right
        refine ⟨?_, h2⟩
        intro x hx; simp at hx; rcases hx with rfl | hx; exact hw; exact h1 x hx

theorem tokFor_at (hm : ∀ c, (chtable c &&& mask = mask) ↔ P c) :
    ∀ (n i : Nat) (s : Bytes), At json i s → n ≤ s.length →
      (∃ p c r, s = p ++ c :: r ∧ (∀ x ∈ p, ¬ P x) ∧ P c ∧ tokFor mask json n i = .ok (some c, i + p.length)) ∨
      ((∀ x ∈ s.take n, ¬ P x) ∧ tokFor mask json n i = .ok (none, i + n))
  | 0, i, s, _, _ => .inr ⟨by simp, rfl⟩
  | n + 1, i, [], _, h => by simp at h
  | n + 1, i, c :: r, h, hl => by
    unfold tokFor
    rw [h.idxUnchecked]
    simp only [ok_bind]
    by_cases hw : P c
    · rw [if_pos ((hm c).2 hw)]
      exact .inl ⟨[], c, r, rfl, by simp, hw, by simp⟩
    · rw [if_neg ((not_congr (hm c)).2 hw)]
      rcases tokFor_at hm n (i + 1) r h.cons (by simpa using hl) with
        ⟨w, d, q, h1, h2, h3, h4⟩ | ⟨h1, h2⟩
      · left
        refine ⟨c :: w, d, q, by simp [h1], ?_, h3, ?_⟩
        · intro x hx; simp at hx; rcases hx with rfl | hx; exact hw; exact h2 x hx
        · rw [h4]; simp; omega
      · right
        refine ⟨?_, by rw [h2]; simp; omega⟩
        intro x hx; simp at hx; rcases hx with rfl | hx; exact hw; exact h1 x hx

theorem tokWhile8_at (hm : ∀ c, (chtable c &&& mask = mask) ↔ P c) :
    ∀ (n i : Nat) (s : Bytes), At json i s → s.length < n →
      (∃ p c r, s = p ++ c :: r ∧ (∀ x ∈ p, ¬ P x) ∧ P c ∧ tokWhile8 mask json n i = .ok (some c, i + p.length)) ∨
      (∃ p r, s = p ++ r ∧ (∀ x ∈ p, ¬ P x) ∧ tokWhile8 mask json n i = .ok (none, i + p.length))
  | 0, _, _, _, h => by omega
  | n + 1, i, s, h, hl => by
    unfold tokWhile8
    have hlen := h.len
    by_cases h8 : i + 8 < json.length
    · rw [if_pos h8]
      rcases tokFor_at hm 8 i s h (by omega) with ⟨p, c, r, h1, h2, h3, h4⟩ | ⟨h1, h2⟩
      · rw [h4]; exact .inl ⟨p, c, r, h1, h2, h3, rfl⟩
      · rw [h2]
        simp only [ok_bind]
        have hs : s = s.take 8 ++ s.drop 8 := (List.take_append_drop 8 s).symm
        have hl8 : (s.take 8).length = 8 := by simp; omega
        have h' : At json i (s.take 8 ++ s.drop 8) := hs ▸ h
        rcases tokWhile8_at hm n (i + 8) (s.drop 8) (h'.append' (by rw [hl8])) (by simp; omega) with
          ⟨p, c, r, g1, g2, g3, g4⟩ | ⟨p, r, g1, g2, g3⟩
        · refine .inl ⟨s.take 8 ++ p, c, r, by conv => { lhs; rw [hs, g1] }; simp, ?_, g3, ?_⟩
          · intro x hx
            rw [List.mem_append] at hx
            exact hx.elim (h1 x) (g2 x)
          · rw [g4, List.length_append, hl8, Nat.add_assoc]
        · refine .inr ⟨s.take 8 ++ p, r, by conv => { lhs; rw [hs, g1] }; simp, ?_, ?_⟩
          · intro x hx
            rw [List.mem_append] at hx
            exact hx.elim (h1 x) (g2 x)
          · rw [g3, List.length_append, hl8, Nat.add_assoc]
    · rw [if_neg h8]
      exact .inr ⟨[], s, rfl, by simp, rfl⟩

theorem tok_at (hm : ∀ c, (chtable c &&& mask = mask) ↔ P c) {i : Nat} {s : Bytes} (h : At json i s) :
    Finds P json i s (tok mask json i) := by
  unfold tok
  have hlen := h.len
  rcases tokWhile8_at hm (json.length + 1) i s h (by omega) with
    ⟨p, c, r, h1, h2, h3, h4⟩ | ⟨p, r, h1, h2, h3⟩
  · rw [h4]; exact .inl ⟨p, c, r, h1, h2, h3, rfl⟩
  · rw [h3]
    simp only [ok_bind]
    subst h1
    rcases tokWhile1_at hm (json.length + 1) _ _ h.append (by simp at hlen; omega) with
      ⟨p', c, r', g1, g2, g3, g4⟩ | ⟨g1, g2⟩
    · refine .inl ⟨p ++ p', c, r', by simp [g1], ?_, g3, ?_⟩
      · intro x hx
        rw [List.mem_append] at hx
        exact hx.elim (h2 x) (g2 x)
      · rw [g4, List.length_append, Nat.add_assoc]
    · refine .inr ⟨?_, g2⟩
      intro x hx
      rw [List.mem_append] at hx
      exact hx.elim (h2 x) (g1 x)

end tok

/-! ### Strings -/

/-- Prepend to the first component. -/
def push1 {α : Type} (p : Bytes) : Option (Bytes × α) → Option (Bytes × α)
  | none => none
  | some (b, a) => some (p ++ b, a)

@[simp] theorem push1_none {α : Type} (p : Bytes) : push1 (α := α) p none = none := rfl
@[simp] theorem push1_some {α : Type} (p b : Bytes) (a : α) : push1 p (some (b, a)) = some (p ++ b, a) := rfl
@[simp] theorem push1_nil {α : Type} (o : Option (Bytes × α)) : push1 [] o = o := by
  cases o <;> rfl
theorem push1_push1 {α : Type} (p q : Bytes) (o : Option (Bytes × α)) :
    push1 p (push1 q o) = push1 (p ++ q) o := by
  cases o with
  | none => rfl
  | some x => obtain ⟨b, a⟩ := x; simp

/-- Set the escape flag. -/
def setEsc : Option (Bytes × Bool × Bytes) → Option (Bytes × Bool × Bytes)
  | none => none
  | some (b, _, q) => some (b, true, q)

/-- The rest of a string after the opening quote: (text through the closing
quote, whether a backslash occurred, what follows). -/
def qStr : Bytes → Option (Bytes × Bool × Bytes)
  | [] => none
  | c :: r =>
    if c = c! '"' then some ([c], false, r)
    else if c = c! '\\' then
      match r with
      | [] => none
      | e :: r' => setEsc (push1 [c, e] (qStr r'))
    else push1 [c] (qStr r)

theorem qStr_plain {p s : Bytes} (h : ∀ c ∈ p, ¬ StrTok c) : qStr (p ++ s) = push1 p (qStr s) := by
  induction p with
  | nil => simp
  | cons c r ih =>
    have hc := h c (by simp)
    unfold StrTok at hc
    rw [List.cons_append, qStr.eq_def]
    simp only
    rw [if_neg (by grind), if_neg (by grind), ih (fun x hx => h x (by simp [hx])), push1_push1]
    rfl

theorem qStr_append : ∀ {s b q : Bytes} {f : Bool}, qStr s = some (b, f, q) → s = b ++ q := by
  intro s
  fun_induction qStr s with
  | case1 => simp
  | case2 r => intro b q f h; simp at h; obtain ⟨rfl, _, rfl⟩ := h; rfl
  | case3 => simp
  | case4 e r' ih1 ih =>
    intro b q f h
    cases hq : qStr r' with
    | none => rw [hq] at h; simp [setEsc] at h
    | some x =>
      obtain ⟨b', f', q'⟩ := x
      rw [hq] at h
      simp [setEsc] at h
      have := ih hq
      rw [this]
      obtain ⟨rfl, _, rfl⟩ := h
      rfl
  | case5 c r h1 h2 ih =>
    intro b q f h
    cases hq : qStr r with
    | none => rw [hq] at h; simp at h
    | some x =>
      obtain ⟨b', f', q'⟩ := x
      rw [hq] at h
      simp at h
      have := ih hq
      rw [this]
      obtain ⟨rfl, _, rfl⟩ := h
      rfl

theorem qStr_ne_nil {s b q : Bytes} {f : Bool} (h : qStr s = some (b, f, q)) : b ≠ [] := by
  intro hb
  subst hb
  rw [qStr.eq_def] at h
  split at h
  · simp at h
  · rename_i c r
    split at h
    · simp at h
    · split at h
      · split at h
        · simp at h
        · rename_i e r'
          cases hq : qStr r' with
          | none => rw [hq] at h; simp [setEsc] at h
          | some x => obtain ⟨b', f', q'⟩ := x; rw [hq] at h; simp [setEsc] at h
      · cases hq : qStr r with
        | none => rw [hq] at h; simp at h
        | some x => obtain ⟨b', f', q'⟩ := x; rw [hq] at h; simp at h

/-- The escape bit. -/
def escBit (f : Bool) : UInt32 := if f then INFO_ESC else 0

/-- What `scan_string` returns, in terms of `qStr` on the suffix; `pre` is the
text between the start and `i`, `f0` the escapes seen so far. -/
def StrRef (json pre : Bytes) (f0 : Bool) (i : Nat) (x : Res (Bytes × UInt32 × Nat))
    (o : Option (Bytes × Bool × Bytes)) : Prop :=
  match o with
  | none => x = .ok ([], 0, json.length)
  | some (b, f, q) => x = .ok (pre ++ b, escBit (f0 || f), i + b.length) ∧ At json (i + b.length) q

theorem scanStringLoop_at {json : Bytes} {s0 : Nat} :
    ∀ (n i : Nat) (pre s : Bytes) (f0 : Bool), At json s0 (pre ++ s) → i = s0 + pre.length → s.length < n →
      StrRef json pre f0 i (scanStringLoop json s0 n i (escBit f0)) (qStr s)
  | 0, _, _, _, _, _, _, h => by omega
  | n + 1, i, pre, s, f0, h0, hi, hl => by
    have h : At json i s := h0.append' hi
    unfold scanStringLoop
    rcases tok_at chtable_strtok h with ⟨p, c, r, h1, h2, h3, h4⟩ | ⟨h1, h2⟩
    · rw [h4]
      simp only [ok_bind]
      subst h1
      have hc := h.append
      rw [qStr_plain h2, qStr.eq_def]
      simp only
      have hcases : c = c! '"' ∨ c = c! '\\' := h3
      by_cases c1 : c = c! '"'
      · rw [if_pos c1, if_pos c1]
        have e : At json s0 ((pre ++ (p ++ [c])) ++ r) := by simpa using h0
        rw [e.slice' (by simp; omega)]
        simp only [ok_bind, push1_some, StrRef]
        refine ⟨by simp; omega, ?_⟩
        exact e.append' (by simp; omega)
      · have c2 := hcases.resolve_left c1
        rw [if_neg c1, if_neg c1, if_pos c2]
        have hr := hc.cons
        cases r with
        | nil => rw [if_pos hr.nil]; rfl
        | cons e r' =>
          simp only
          rw [if_neg hr.ne]
          have e2 : escBit f0 ||| INFO_ESC = escBit true := by cases f0 <;> decide
          rw [e2]
          have ih := scanStringLoop_at (json := json) (s0 := s0) n (i + p.length + 1 + 1)
            (pre ++ (p ++ [c, e])) r' true (by simpa using h0) (by simp; omega)
            (by simp at hl; omega)
          cases hq : qStr r' with
          | none => rw [hq] at ih; simpa [StrRef, setEsc] using ih
          | some x =>
            obtain ⟨b, f, q⟩ := x
            rw [hq] at ih
            simp only [StrRef, setEsc, push1_some] at ih ⊢
            refine ⟨?_, ?_⟩
            · rw [ih.1]; simp; omega
            · have := ih.2
              have e3 : i + p.length + 1 + 1 + b.length = i + (p ++ ([c, e] ++ b)).length := by
                simp; omega
              rw [← e3]; exact this
    · rw [h2]
      have : qStr s = none := by
        have := qStr_plain (s := []) h1
        simpa [qStr] using this
      rw [this]
      rfl

theorem scanString_at {json : Bytes} {i : Nat} {c : UInt8} {s : Bytes} (h : At json i (c :: s)) :
    match qStr s with
    | none => scanString json i = .ok ([], 0, json.length)
    | some (b, f, q) => scanString json i = .ok (c :: b, escBit f, i + (c :: b).length) ∧
        At json (i + (c :: b).length) q := by
  have := scanStringLoop_at (json := json) (s0 := i) (json.length + 1) (i + 1) [c] s false h rfl
    (by have := h.len; simp at this; omega)
  unfold scanString
  cases hq : qStr s with
  | none => rw [hq] at this; exact this
  | some x =>
    obtain ⟨b, f, q⟩ := x
    rw [hq] at this
    simp only [StrRef] at this ⊢
    have e : i + (c :: b).length = i + 1 + b.length := by simp; omega
    rw [e]
    simpa [escBit] using this

/-! ### Balanced brackets -/

/-- The text through the bracket that closes depth `d`; the flag tells whether
we are inside a string. -/
def sq : Nat → Bool → Bytes → Option (Bytes × Bytes)
  | _, _, [] => none
  | d, true, c :: r =>
    if c = c! '"' then push1 [c] (sq d false r)
    else if c = c! '\\' then
      match r with
      | [] => none
      | e :: r' => push1 [c, e] (sq d true r')
    else push1 [c] (sq d true r)
  | d, false, c :: r =>
    if c = c! '"' then push1 [c] (sq d true r)
    else if OpenTok c then push1 [c] (sq (d + 1) false r)
    else if CloseTok c then
      if d - 1 = 0 then some ([c], r) else push1 [c] (sq (d - 1) false r)
    else if c = c! '\\' then
      match r with
      | [] => none
      | e :: r' => push1 [c, e] (sq d false r')
    else push1 [c] (sq d false r)

theorem sq_true (d : Nat) (s : Bytes) : sq d true s =
    match qStr s with
    | none => none
    | some (b, _, q) => push1 b (sq d false q) := by
  fun_induction qStr s with
  | case1 => simp [sq]
  | case2 r => rw [sq.eq_def]; simp
  | case3 => simp [sq]
  | case4 e r' ih1 ih =>
    rw [sq]
    simp only [ih1, if_true, if_false]
    rw [ih]
    cases hq : qStr r' with
    | none => simp [setEsc]
    | some x => obtain ⟨b, f, q⟩ := x; simp [setEsc, push1_push1]
  | case5 c r h1 h2 ih =>
    rw [sq.eq_def]
    simp only [h1, h2, if_false]
    rw [ih]
    cases hq : qStr r with
    | none => simp
    | some x => obtain ⟨b, f, q⟩ := x; simp [push1_push1]

theorem sq_plain {d : Nat} {p s : Bytes} (h : ∀ c ∈ p, ¬ SqTok c) :
    sq d false (p ++ s) = push1 p (sq d false s) := by
  induction p with
  | nil => simp
  | cons c r ih =>
    have hc := h c (by simp)
    unfold SqTok StrTok at hc
    rw [List.cons_append, sq.eq_def]
    simp only
    rw [if_neg (by grind), if_neg (by grind), if_neg (by grind), if_neg (by grind),
      ih (fun x hx => h x (by simp [hx])), push1_push1]
    rfl

theorem sq_append : ∀ {d : Nat} {f : Bool} {s b q : Bytes}, sq d f s = some (b, q) → s = b ++ q ∧ b ≠ [] := by
  intro d f s
  have key : ∀ (p : Bytes) (o : Option (Bytes × Bytes)) (s : Bytes), p ≠ [] →
      (∀ b q, o = some (b, q) → s = b ++ q ∧ b ≠ []) →
      ∀ b q, push1 p o = some (b, q) → p ++ s = b ++ q ∧ b ≠ [] := by
    intro p o s hp h b q hb
    cases o with
    | none => simp at hb
    | some x =>
      obtain ⟨b', q'⟩ := x
      simp at hb
      obtain ⟨rfl, rfl⟩ := hb
      have := (h b' q' rfl).1
      exact ⟨by rw [this]; simp, by simp [hp]⟩
  fun_induction sq d f s with
  | case1 => simp
  | case2 d r ih => intro b q h; exact key _ _ _ (by simp) (fun b q => ih) b q h
  | case3 => simp
  | case4 d e r' h1 ih => intro b q h; exact key [_, _] _ _ (by simp) (fun b q => ih) b q h
  | case5 d c r h1 h2 ih => intro b q h; exact key _ _ _ (by simp) (fun b q => ih) b q h
  | case6 d r ih => intro b q h; exact key _ _ _ (by simp) (fun b q => ih) b q h
  | case7 d c r h1 h2 ih => intro b q h; exact key _ _ _ (by simp) (fun b q => ih) b q h
  | case8 d c r h1 h2 h3 h4 => intro b q h; simp at h; obtain ⟨rfl, rfl⟩ := h; simp
  | case9 d c r h1 h2 h3 h4 ih => intro b q h; exact key _ _ _ (by simp) (fun b q => ih) b q h
  | case10 => simp
  | case11 d e r' h1 h2 h3 ih => intro b q h; exact key [_, _] _ _ (by simp) (fun b q => ih) b q h
  | case12 d c r h1 h2 h3 h4 ih => intro b q h; exact key _ _ _ (by simp) (fun b q => ih) b q h

/-- What `scan_squash` returns, in terms of `sq` on the suffix. -/
def SqRef (json pre : Bytes) (i : Nat) (x : Res (Bytes × Nat)) (o : Option (Bytes × Bytes)) : Prop :=
  match o with
  | none => x = .ok ([], json.length)
  | some (b, q) => x = .ok (pre ++ b, i + b.length) ∧ At json (i + b.length) q

theorem SqRef.push {json pre p : Bytes} {i : Nat} {x : Res (Bytes × Nat)} {o : Option (Bytes × Bytes)}
    (h : SqRef json (pre ++ p) (i + p.length) x o) : SqRef json pre i x (push1 p o) := by
  cases o with
  | none => exact h
  | some y =>
    obtain ⟨b, q⟩ := y
    simp only [SqRef, push1_some] at h ⊢
    have e : i + (p ++ b).length = i + p.length + b.length := by simp; omega
    rw [e]
    simpa using h

theorem scanSquashLoop_at {json : Bytes} {s0 : Nat} :
    ∀ (n i d : Nat) (pre s : Bytes), At json s0 (pre ++ s) → i = s0 + pre.length → s.length < n →
      SqRef json pre i (scanSquashLoop json s0 n i d) (sq d false s)
  | 0, _, _, _, _, _, _, h => by omega
  | n + 1, i, d, pre, s, h0, hi, hl => by
    have h : At json i s := h0.append' hi
    unfold scanSquashLoop
    rcases tok_at chtable_squash h with ⟨p, c, r, h1, h2, h3, h4⟩ | ⟨h1, h2⟩
    · rw [h4]
      simp only [ok_bind]
      subst h1
      have hc := h.append
      have hlr : r.length < n := by simp at hl; omega
      rw [sq_plain h2, sq.eq_def]
      simp only
      simp only [chtable_open, chtable_close]
      have hpc : At json s0 ((pre ++ (p ++ [c])) ++ r) := by simpa using h0
      by_cases c1 : c = c! '"'
      · rw [if_pos c1, if_pos c1, push1_push1]
        have hs := scanString_at hc
        rw [sq_true]
        cases hq : qStr r with
        | none =>
          rw [hq] at hs
          simp only at hs
          rw [hs]
          simp only [ok_bind, push1_none]
          have hend : At json json.length [] := ⟨Nat.le_refl _, by simp⟩
          cases n with
          | zero => omega
          | succ n =>
            unfold scanSquashLoop
            rcases tok_at chtable_squash hend with ⟨p, c, r, g1, _⟩ | ⟨_, g2⟩
            · simp at g1
            · rw [g2]; rfl
        | some x =>
          obtain ⟨b, f, q⟩ := x
          rw [hq] at hs
          simp only at hs
          rw [hs.1]
          simp only [ok_bind]
          rw [push1_push1]
          have hbq := qStr_append hq
          subst hbq
          apply SqRef.push
          have e : i + (p ++ [c] ++ b).length = i + p.length + (c :: b).length := by simp; omega
          rw [e]
          exact scanSquashLoop_at n _ d _ q (by simpa using h0) (by simp; omega)
            (by simp at hlr; omega)
      · rw [if_neg c1, if_neg c1]
        by_cases c2 : OpenTok c
        · rw [if_pos c2, if_pos c2, push1_push1]
          apply SqRef.push
          have e : i + (p ++ [c]).length = i + p.length + 1 := by simp; omega
          rw [e]
          exact scanSquashLoop_at n _ _ _ r hpc (by simp; omega) hlr
        · rw [if_neg c2, if_neg c2]
          by_cases c3 : CloseTok c
          · rw [if_pos c3, if_pos c3]
            by_cases hd : d - 1 = 0
            · rw [if_pos hd, if_pos hd]
              rw [hpc.slice' (by simp; omega)]
              simp only [ok_bind, push1_some, SqRef]
              exact ⟨by simp; omega, hpc.append' (by simp; omega)⟩
            · rw [if_neg hd, if_neg hd, push1_push1]
              apply SqRef.push
              have e : i + (p ++ [c]).length = i + p.length + 1 := by simp; omega
              rw [e]
              exact scanSquashLoop_at n _ _ _ r hpc (by simp; omega) hlr
          · rw [if_neg c3, if_neg c3]
            have c4 : c = c! '\\' := by unfold SqTok StrTok at h3; grind
            rw [if_pos c4, if_pos c4]
            cases r with
            | nil => rw [if_pos hc.cons.nil]; rfl
            | cons e r' =>
              simp only
              rw [if_neg hc.cons.ne, push1_push1]
              apply SqRef.push
              have e2 : i + (p ++ [c, e]).length = i + p.length + 1 + 1 := by simp; omega
              rw [e2]
              exact scanSquashLoop_at n _ _ _ r' (by simpa using h0) (by simp; omega)
                (by simp at hlr; omega)
    · rw [h2]
      have : sq d false s = none := by
        have := sq_plain (d := d) (s := []) h1
        simpa [sq] using this
      rw [this]
      rfl

theorem scanSquash_at {json : Bytes} {i : Nat} {c : UInt8} {s : Bytes} (h : At json i (c :: s)) :
    match sq 1 false s with
    | none => scanSquash json i = .ok ([], json.length)
    | some (b, q) => scanSquash json i = .ok (c :: b, i + (c :: b).length) ∧
        At json (i + (c :: b).length) q := by
  have := scanSquashLoop_at (json := json) (s0 := i) (json.length + 1) (i + 1) 1 [c] s h rfl
    (by have := h.len; simp at this; omega)
  unfold scanSquash
  cases hq : sq 1 false s with
  | none => rw [hq] at this; exact this
  | some x =>
    obtain ⟨b, q⟩ := x
    rw [hq] at this
    simp only [SqRef] at this ⊢
    have e : i + (c :: b).length = i + 1 + b.length := by simp; omega
    rw [e]
    simpa using this

/-! ### Numbers -/

/-- A byte that `scan_number` accepts after the first. -/
def NumCh (c : UInt8) : Prop :=
  c = c! '.' ∨ c = c! 'e' ∨ c = c! 'E' ∨ (c! '0' ≤ c ∧ c ≤ c! '9') ∨ c = c! '-' ∨ c = c! '+'
instance (c : UInt8) : Decidable (NumCh c) := by unfold NumCh; infer_instance

/-- The flags collected by `scan_number`. -/
def numFlags (f : UInt32) : Bytes → UInt32
  | [] => f
  | c :: r =>
    if c = c! '.' then numFlags (f ||| INFO_DOT) r
    else if c = c! 'e' ∨ c = c! 'E' then numFlags (f ||| INFO_E) r
    else numFlags f r

/-- Longest prefix of number bytes. -/
def numTake (s : Bytes) : Bytes := s.takeWhile (fun c => decide (NumCh c))
/-- What follows it. -/
def numDrop (s : Bytes) : Bytes := s.dropWhile (fun c => decide (NumCh c))

theorem numTake_append_numDrop (s : Bytes) : numTake s ++ numDrop s = s := List.takeWhile_append_dropWhile

theorem scanNumberLoop_at {json : Bytes} : ∀ (n i : Nat) (s : Bytes) (f : UInt32), At json i s → s.length < n →
    scanNumberLoop json n i f = .ok (numFlags f (numTake s), i + (numTake s).length)
  | 0, _, _, _, _, h => by omega
  | n + 1, i, [], f, h, _ => by
    have := h.nil
    simp [scanNumberLoop, this, numTake, numFlags]
  | n + 1, i, c :: r, f, h, hl => by
    unfold scanNumberLoop
    rw [if_pos h.lt, h.idx]
    simp only [ok_bind]
    have ih := fun f => scanNumberLoop_at n (i + 1) r f h.cons (by simp at hl; omega)
    by_cases c1 : c = c! '.'
    · rw [if_pos c1, ih]
      have hn : NumCh c := by unfold NumCh; grind
      have e : numTake (c :: r) = c :: numTake r := by simp [numTake, hn]
      rw [e, numFlags, if_pos c1]
      simp; omega
    rw [if_neg c1]
    by_cases c2 : c = c! 'e' ∨ c = c! 'E'
    · rw [if_pos c2, ih]
      have hn : NumCh c := by unfold NumCh; grind
      have e : numTake (c :: r) = c :: numTake r := by simp [numTake, hn]
      rw [e, numFlags, if_neg c1, if_pos c2]
      simp; omega
    rw [if_neg c2]
    by_cases c3 : (c < c! '0' ∨ c > c! '9') ∧ c ≠ c! '-' ∧ c ≠ c! '+'
    · rw [if_pos c3]
      have hn : ¬ NumCh c := by unfold NumCh; grind
      have e : numTake (c :: r) = [] := by simp [numTake, hn]
      rw [e]; rfl
    · rw [if_neg c3, ih]
      have hn : NumCh c := by unfold NumCh; grind
      have e : numTake (c :: r) = c :: numTake r := by simp [numTake, hn]
      rw [e, numFlags, if_neg c1, if_neg c2]
      simp; omega

/-- The sign bit of `scan_number`. -/
def signBit (c : UInt8) : UInt32 := if c = c! '-' then INFO_SIGN else 0

theorem scanNumber_at {json : Bytes} {i : Nat} {c : UInt8} {s : Bytes} (h : At json i (c :: s)) :
    scanNumber json i = .ok (c :: numTake s, numFlags (signBit c) (numTake s), i + (c :: numTake s).length) ∧
    At json (i + (c :: numTake s).length) (numDrop s) := by
  unfold scanNumber
  rw [h.idx]
  simp only [ok_bind]
  rw [scanNumberLoop_at _ _ s _ h.cons (by have := h.len; simp at this; omega)]
  simp only [ok_bind]
  have h' : At json i ((c :: numTake s) ++ numDrop s) := by
    rw [List.cons_append, numTake_append_numDrop]; exact h
  rw [h'.slice' (by simp; omega)]
  simp only [ok_bind]
  refine ⟨?_, h'.append⟩
  simp [signBit]; omega

/-- The possible flags of a number. -/
def NumFlags (f : UInt32) : Prop :=
  f ∈ [0, INFO_SIGN, INFO_DOT, INFO_E, INFO_SIGN ||| INFO_DOT, INFO_SIGN ||| INFO_E,
    INFO_DOT ||| INFO_E, INFO_SIGN ||| INFO_DOT ||| INFO_E]
instance (f : UInt32) : Decidable (NumFlags f) := by unfold NumFlags; infer_instance

theorem NumFlags.or_dot {f : UInt32} (h : NumFlags f) : NumFlags (f ||| INFO_DOT) := by
  unfold NumFlags at h
  simp only [List.mem_cons, List.not_mem_nil, or_false] at h
  rcases h with rfl | rfl | rfl | rfl | rfl | rfl | rfl | rfl <;> decide

theorem NumFlags.or_e {f : UInt32} (h : NumFlags f) : NumFlags (f ||| INFO_E) := by
  unfold NumFlags at h
  simp only [List.mem_cons, List.not_mem_nil, or_false] at h
  rcases h with rfl | rfl | rfl | rfl | rfl | rfl | rfl | rfl <;> decide

theorem numFlags_mem {f : UInt32} {s : Bytes} (h : NumFlags f) : NumFlags (numFlags f s) := by
  induction s generalizing f with
  | nil => exact h
  | cons c r ih =>
    unfold numFlags
    split
    · exact ih h.or_dot
    · split
      · exact ih h.or_e
      · exact ih h

theorem signBit_mem (c : UInt8) : NumFlags (signBit c) := by
  unfold signBit; split <;> decide

end Gjson
