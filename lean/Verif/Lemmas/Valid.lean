import Verif.Lemmas.At
import Verif.Model.Valid
import Verif.Spec
/-
The validator refines a recursive-descent parser on suffixes.
-/
namespace Gjson
open Spec

theorem vtable_space (c : UInt8) : (vtable c &&& SPACE = SPACE) ↔ IsWs c := by
  unfold vtable IsWs
  by_cases h1 : c = c! '\t' ∨ c = c! '\n' ∨ c = c! '\r' ∨ c = c! ' ' <;>
  by_cases h2 : c ≤ 0x1F ∨ c = c! '"' ∨ c = c! '\\' <;> simp only [h1, h2, if_true, if_false]
  all_goals first
    | exact iff_of_true (by decide) (by grind)
    | exact iff_of_false (by decide) (by grind)

theorem vtable_string (c : UInt8) :
    (vtable c &&& VSTRING = VSTRING) ↔ (c < 0x20 ∨ c = c! '"' ∨ c = c! '\\') := by
  unfold vtable
  by_cases h1 : c = c! '\t' ∨ c = c! '\n' ∨ c = c! '\r' ∨ c = c! ' ' <;>
  by_cases h2 : c ≤ 0x1F ∨ c = c! '"' ∨ c = c! '\\' <;> simp only [h1, h2, if_true, if_false]
  all_goals first
    | exact iff_of_true (by decide) (by grind)
    | exact iff_of_false (by decide) (by grind)

theorem isspace_iff (c : UInt8) : isspace c = true ↔ IsWs c := by
  unfold isspace; rw [decide_eq_true_iff]; exact vtable_space c

theorem ishexdigit_iff (c : UInt8) : ishexdigit c = true ↔ IsHex c := by
  unfold ishexdigit IsHex; simp; grind

/-- Result of a validator function agrees with a parser result (`some rest` / `none`). -/
def VRef (json : Bytes) (x : Res (Bool × Nat)) (o : Option Bytes) : Prop :=
  match o with
  | none => ∃ j, x = .ok (false, j)
  | some r => ∃ j, x = .ok (true, j) ∧ At json j r

/-- Drop leading whitespace. -/
def pWs (s : Bytes) : Bytes := s.dropWhile (fun c => decide (IsWs c))

theorem stripWsLoop_at {json : Bytes} : ∀ (n i : Nat) (s : Bytes), At json i s → s.length < n →
    ∃ j, stripWsLoop json n i = .ok j ∧ At json j (pWs s)
  | 0, _, _, _, h => by omega
  | n + 1, i, [], h, _ => by
    refine ⟨i, ?_, h⟩
    have := h.nil
    simp [stripWsLoop, this]
  | n + 1, i, c :: r, h, hl => by
    unfold stripWsLoop
    rw [if_pos h.lt, h.idx]
    simp only [ok_bind]
    by_cases hw : IsWs c
    · rw [if_neg (by simpa using (vtable_space c).2 hw)]
      obtain ⟨j, h1, h2⟩ := stripWsLoop_at n (i + 1) r h.cons (by simp at hl; omega)
      exact ⟨j, h1, by simpa [pWs, hw] using h2⟩
    · rw [if_pos (by simpa using (not_congr (vtable_space c)).2 hw)]
      exact ⟨i, rfl, by simpa [pWs, hw] using h⟩

theorem stripWsFor_spec : ∀ (s : Bytes) (i : Nat),
    (∃ w c r, s = w ++ c :: r ∧ Ws w ∧ ¬ IsWs c ∧ stripWsFor s i = (some (i + w.length), i + w.length)) ∨
    (Ws s ∧ stripWsFor s i = (none, i + s.length))
  | [], i => .inr ⟨by simp [Ws], by simp [stripWsFor]⟩
  | c :: r, i => by
    unfold stripWsFor
    by_cases hw : IsWs c
    · rw [if_neg (by simpa using (vtable_space c).2 hw)]
      rcases stripWsFor_spec r (i + 1) with ⟨w, d, q, h1, h2, h3, h4⟩ | ⟨h1, h2⟩
      · left
        refine ⟨c :: w, d, q, by simp [h1], ?_, h3, ?_⟩
        · intro x hx; simp at hx; rcases hx with rfl | hx; exact hw; exact h2 x hx
        · rw [h4]; simp; omega
      · right
        refine ⟨?_, by rw [h2]; simp; omega⟩
        intro x hx; simp at hx; rcases hx with rfl | hx; exact hw; exact h1 x hx
    · rw [if_pos (by simpa using (not_congr (vtable_space c)).2 hw)]
      exact .inl ⟨[], c, r, rfl, by simp [Ws], hw, by simp⟩

theorem pWs_append {w s : Bytes} (h : Ws w) : pWs (w ++ s) = pWs s := by
  unfold pWs
  induction w with
  | nil => rfl
  | cons c r ih =>
    have hc : IsWs c := h c (by simp)
    simp [hc]
    exact ih (fun x hx => h x (by simp [hx]))

theorem pWs_cons_not {c : UInt8} {r : Bytes} (h : ¬ IsWs c) : pWs (c :: r) = c :: r := by
  simp [pWs, h]

theorem pWs_spec (s : Bytes) : ∃ w, Ws w ∧ s = w ++ pWs s ∧ ∀ c ∈ (pWs s).head?, ¬ IsWs c := by
  induction s with
  | nil => exact ⟨[], by simp [Ws], rfl, by simp [pWs]⟩
  | cons c r ih =>
    by_cases hw : IsWs c
    · obtain ⟨w, h1, h2, h3⟩ := ih
      have e : pWs (c :: r) = pWs r := by simp [pWs, hw]
      refine ⟨c :: w, ?_, ?_, ?_⟩
      · intro x hx; simp at hx; rcases hx with rfl | hx; exact hw; exact h1 x hx
      · rw [e]; simpa using h2
      · rw [e]; exact h3
    · exact ⟨[], by simp [Ws], by rw [pWs_cons_not hw]; rfl, by rw [pWs_cons_not hw]; simpa using hw⟩

theorem stripWs_at {json : Bytes} {i : Nat} {s : Bytes} (h : At json i s) :
    ∃ j, stripWs json i = .ok j ∧ At json j (pWs s) := by
  have hlen := h.len
  unfold stripWs
  split
  · rename_i h16
    have hs : s = s.take 16 ++ s.drop 16 := (List.take_append_drop 16 s).symm
    have h16' : (s.take 16).length = 16 := by simp; omega
    have h' : At json i (s.take 16 ++ s.drop 16) := hs ▸ h
    rw [h'.slice' (by rw [h16'])]
    simp only [ok_bind]
    rcases stripWsFor_spec (s.take 16) i with ⟨w, c, r, h1, h2, h3, h4⟩ | ⟨h1, h2⟩
    · rw [h4]
      refine ⟨_, rfl, ?_⟩
      rw [h1] at h'
      have e : s = w ++ (c :: (r ++ s.drop 16)) := by conv => { lhs; rw [hs, h1] }; simp
      rw [e, pWs_append h2, pWs_cons_not h3]
      rw [e] at h
      exact h.append
    · rw [h2]
      simp only
      obtain ⟨j, h3, h4⟩ := stripWsLoop_at (json := json) (json.length + 1) _ _ h'.append
        (by simp; omega)
      exact ⟨j, h3, by rw [hs, pWs_append h1]; exact h4⟩
  · exact stripWsLoop_at _ _ _ h (by omega)

/-- Bytes that `valid_string` skips. -/
def Plain (c : UInt8) : Prop := ¬ (c < 0x20 ∨ c = c! '"' ∨ c = c! '\\')
instance (c : UInt8) : Decidable (Plain c) := by unfold Plain; infer_instance

/-- Parser for the rest of a string literal after the opening quote. -/
def pStr : Bytes → Option Bytes
  | [] => none
  | c :: r =>
    if c < 0x20 then none
    else if c = c! '"' then some r
    else if c = c! '\\' then
      match r with
      | [] => none
      | e :: r' =>
        if IsSimpleEsc e then pStr r'
        else if e = c! 'u' then
          match r' with
          | h1 :: h2 :: h3 :: h4 :: r'' =>
            if IsHex h1 ∧ IsHex h2 ∧ IsHex h3 ∧ IsHex h4 then pStr r'' else none
          | _ => none
        else none
    else pStr r

theorem pStr_plain {p s : Bytes} (h : ∀ c ∈ p, Plain c) : pStr (p ++ s) = pStr s := by
  induction p with
  | nil => rfl
  | cons c r ih =>
    have hc := h c (by simp)
    unfold Plain at hc
    rw [List.cons_append, pStr.eq_def]
    simp only
    rw [if_neg (by grind), if_neg (by grind), if_neg (by grind)]
    exact ih (fun x hx => h x (by simp [hx]))

theorem validStringFor_spec : ∀ (s : Bytes) (i : Nat),
    (∃ p c r, s = p ++ c :: r ∧ (∀ x ∈ p, Plain x) ∧ ¬ Plain c ∧
      validStringFor s i = (true, i + p.length)) ∨
    ((∀ x ∈ s, Plain x) ∧ validStringFor s i = (false, i + s.length))
  | [], i => .inr ⟨by simp, by simp [validStringFor]⟩
  | c :: r, i => by
    unfold validStringFor
    by_cases hw : Plain c
    · rw [if_neg (by rw [vtable_string]; exact hw)]
      rcases validStringFor_spec r (i + 1) with ⟨w, d, q, h1, h2, h3, h4⟩ | ⟨h1, h2⟩
      · left
        refine ⟨c :: w, d, q, by simp [h1], ?_, h3, ?_⟩
        · intro x hx; simp at hx; rcases hx with rfl | hx; exact hw; exact h2 x hx
        · rw [h4]; simp; omega
      · right
        refine ⟨?_, by rw [h2]; simp; omega⟩
        intro x hx; simp at hx; rcases hx with rfl | hx; exact hw; exact h1 x hx
    · rw [if_pos (by rw [vtable_string]; exact Decidable.not_not.1 hw)]
      exact .inl ⟨[], c, r, rfl, by simp, hw, by simp⟩

/-- What the search for the next special byte finds. -/
def TokSpec (json : Bytes) (i : Nat) (s : Bytes) (x : Res (Bool × Nat)) : Prop :=
  (∃ p c r, s = p ++ c :: r ∧ (∀ x ∈ p, Plain x) ∧ ¬ Plain c ∧ x = .ok (true, i + p.length)) ∨
  ((∀ x ∈ s, Plain x) ∧ x = .ok (false, json.length))

theorem validStringWhile_at {json : Bytes} : ∀ (n i : Nat) (s : Bytes), At json i s → s.length < n →
    TokSpec json i s (validStringWhile json n i)
  | 0, _, _, _, h => by omega
  | n + 1, i, [], h, _ => by
    have := h.nil
    exact .inr ⟨by simp, by simp [validStringWhile, this]⟩
  | n + 1, i, c :: r, h, hl => by
    unfold validStringWhile
    rw [if_pos h.lt, h.idx]
    simp only [ok_bind]
    by_cases hw : Plain c
    · rw [if_neg (by rw [vtable_string]; exact hw)]
      rcases validStringWhile_at n (i + 1) r h.cons (by simp at hl; omega) with
        ⟨w, d, q, h1, h2, h3, h4⟩ | ⟨h1, h2⟩
      · left
        refine ⟨c :: w, d, q, by simp [h1], ?_, h3, ?_⟩
        · intro x hx; simp at hx; rcases hx with rfl | hx; exact hw; exact h2 x hx
        · rw [h4]; simp; omega
      · right
        refine ⟨?_, h2⟩
        intro x hx; simp at hx; rcases hx with rfl | hx; exact hw; exact h1 x hx
    · rw [if_pos (by rw [vtable_string]; exact Decidable.not_not.1 hw)]
      exact .inl ⟨[], c, r, rfl, by simp, hw, by simp⟩

theorem validStringTok_at {json : Bytes} {i : Nat} {s : Bytes} (h : At json i s) :
    TokSpec json i s (validStringTok json i) := by
  have hlen := h.len
  unfold validStringTok
  split
  · rename_i h32
    have hs : s = s.take 32 ++ s.drop 32 := (List.take_append_drop 32 s).symm
    have h32' : (s.take 32).length = 32 := by simp; omega
    have h' : At json i (s.take 32 ++ s.drop 32) := hs ▸ h
    rw [h'.slice' (by rw [h32'])]
    simp only [ok_bind]
    rcases validStringFor_spec (s.take 32) i with ⟨w, c, r, h1, h2, h3, h4⟩ | ⟨h1, h2⟩
    · rw [h4]
      exact .inl ⟨w, c, r ++ s.drop 32, by conv => { lhs; rw [hs, h1] }; simp, h2, h3, rfl⟩
    · rw [h2]
      simp only
      rcases validStringWhile_at (json := json) (json.length + 1) _ _ h'.append
        (by simp; omega) with ⟨w, c, r, g1, g2, g3, g4⟩ | ⟨g1, g2⟩
      · refine .inl ⟨s.take 32 ++ w, c, r, by conv => { lhs; rw [hs, g1] }; simp, ?_, g3, ?_⟩
        · intro x hx
          rw [List.mem_append] at hx
          exact hx.elim (h1 x) (g2 x)
        · rw [g4]; simp; omega
      · refine .inr ⟨?_, g2⟩
        intro x hx
        rw [hs, List.mem_append] at hx
        exact hx.elim (h1 x) (g1 x)
  · exact validStringWhile_at _ _ _ h (by omega)

theorem validHex_at {json : Bytes} : ∀ (n i : Nat) (c : UInt8) (s : Bytes), At json i (c :: s) →
    (∃ hs r, s = hs ++ r ∧ hs.length = n ∧ (∀ x ∈ hs, IsHex x) ∧
      validHex json n i = .ok (true, i + n)) ∨
    ((¬ ∃ hs r, s = hs ++ r ∧ hs.length = n ∧ (∀ x ∈ hs, IsHex x)) ∧
      ∃ j, validHex json n i = .ok (false, j))
  | 0, i, c, s, h => .inl ⟨[], s, rfl, rfl, by simp, rfl⟩
  | n + 1, i, c, [], h => by
    right
    refine ⟨?_, i + 1, by simp [validHex, h.cons.nil]⟩
    rintro ⟨hs, r, h1, h2, _⟩
    have := congrArg List.length h1
    simp at this; omega
  | n + 1, i, c, d :: s, h => by
    unfold validHex
    simp only
    rw [if_neg h.cons.ne, h.cons.idx]
    simp only [ok_bind]
    by_cases hd : IsHex d
    · rw [if_neg (by simpa using (ishexdigit_iff d).2 hd)]
      rcases validHex_at n (i + 1) d s h.cons with ⟨hs, r, h1, h2, h3, h4⟩ | ⟨h1, h2⟩
      · left
        refine ⟨d :: hs, r, by simp [h1], by simp [h2], ?_, by rw [h4]; simp; omega⟩
        intro x hx; simp at hx; rcases hx with rfl | hx; exact hd; exact h3 x hx
      · right
        refine ⟨?_, h2⟩
        rintro ⟨hs, r, g1, g2, g3⟩
        cases hs with
        | nil => simp at g2
        | cons e hs =>
          simp at g1 g2
          exact h1 ⟨hs, r, g1.2, g2, fun x hx => g3 x (by simp [hx])⟩
    · rw [if_pos (by simpa using (not_congr (ishexdigit_iff d)).2 hd)]
      right
      refine ⟨?_, i + 1, rfl⟩
      rintro ⟨hs, r, g1, g2, g3⟩
      cases hs with
      | nil => simp at g2
      | cons e hs =>
        simp at g1 g2
        exact hd (g1.1 ▸ g3 e (by simp))

theorem isSimpleEsc_iff (e : UInt8) : IsSimpleEsc e ↔
    (e = c! '"' ∨ e = c! '\\' ∨ e = c! '/' ∨ e = c! 'b' ∨ e = c! 'f' ∨ e = c! 'n' ∨
      e = c! 'r' ∨ e = c! 't') := by
  unfold IsSimpleEsc; simp

theorem validStringLoop_at {json : Bytes} : ∀ (n i : Nat) (s : Bytes), At json i s → s.length < n →
    VRef json (validStringLoop json n i) (pStr s)
  | 0, _, _, _, h => by omega
  | n + 1, i, s, h, hl => by
    unfold validStringLoop
    rcases validStringTok_at h with ⟨p, c, r, h1, h2, h3, h4⟩ | ⟨h1, h2⟩
    · rw [h4]
      simp only [ok_bind]
      subst h1
      rw [pStr_plain h2]
      have hc := h.append
      have hlr : r.length < n := by simp at hl; omega
      rw [hc.idx]
      simp only [ok_bind]
      rw [pStr.eq_def]
      simp only
      unfold Plain at h3
      by_cases c1 : c < 0x20
      · rw [if_pos c1, if_pos c1]; exact ⟨_, rfl⟩
      rw [if_neg c1, if_neg c1]
      by_cases c2 : c = c! '"'
      · rw [if_pos c2, if_pos c2]; exact ⟨_, rfl, hc.cons⟩
      rw [if_neg c2, if_neg c2]
      have c3 : c = c! '\\' := by grind
      rw [if_pos c3, if_pos c3]
      cases r with
      | nil => simp only; rw [if_pos hc.cons.nil]; exact ⟨_, rfl⟩
      | cons e r' =>
        have he := hc.cons
        simp only
        rw [if_neg he.ne, he.idx]
        simp only [ok_bind]
        simp only [isSimpleEsc_iff]
        split
        · exact validStringLoop_at n _ r' he.cons (by simp at hlr; omega)
        · by_cases e2 : e = c! 'u'
          · rw [if_pos e2, if_pos e2]
            rcases validHex_at 4 _ _ _ he with ⟨hs, q, g1, g2, g3, g4⟩ | ⟨g1, j, g2⟩
            · rw [g4]
              subst g1
              match hs, g2, g3, he with
              | [a, b, d, f], _, g3, he =>
                simp only [ok_bind, List.cons_append, List.nil_append]
                rw [if_pos ⟨g3 a (by simp), g3 b (by simp), g3 d (by simp), g3 f (by simp)⟩]
                refine validStringLoop_at n _ q ?_ (by simp at hlr; omega)
                exact he.cons.append (t := [a, b, d, f])
            · rw [g2]
              simp only [ok_bind]
              have : (match r' with
                | h1 :: h2 :: h3 :: h4 :: r'' =>
                  if IsHex h1 ∧ IsHex h2 ∧ IsHex h3 ∧ IsHex h4 then pStr r'' else none
                | _ => none) = none := by
                split
                · rename_i a b d f r''
                  rw [if_neg]
                  rintro ⟨x1, x2, x3, x4⟩
                  exact g1 ⟨[a, b, d, f], r'', rfl, rfl, by simp; exact ⟨x1, x2, x3, x4⟩⟩
                · rfl
              rw [this]
              exact ⟨_, rfl⟩
          · rw [if_neg e2, if_neg e2]; exact ⟨_, rfl⟩
    · rw [h2]
      simp only [ok_bind]
      have := pStr_plain (s := []) h1
      rw [List.append_nil] at this
      rw [this]
      exact ⟨_, rfl⟩

theorem validString_at {json : Bytes} {i : Nat} {c : UInt8} {s : Bytes} (h : At json i (c :: s)) :
    VRef json (validString json i) (pStr s) :=
  validStringLoop_at _ _ _ h.cons (by have := h.len; simp at this; omega)

/-- Drop leading digits. -/
def pDigits (s : Bytes) : Bytes := s.dropWhile (fun c => decide (IsDigit c))

theorem skipDigits_at {json : Bytes} : ∀ (n i : Nat) (s : Bytes), At json i s → s.length < n →
    ∃ j, skipDigits json n i = .ok j ∧ At json j (pDigits s)
  | 0, _, _, _, h => by omega
  | n + 1, i, [], h, _ => by
    refine ⟨i, ?_, h⟩
    have := h.nil
    simp [skipDigits, this]
  | n + 1, i, c :: r, h, hl => by
    unfold skipDigits
    rw [if_pos h.lt, h.idx]
    simp only [ok_bind]
    by_cases hw : IsDigit c
    · rw [if_pos (by unfold IsDigit at hw; exact hw)]
      obtain ⟨j, h1, h2⟩ := skipDigits_at n (i + 1) r h.cons (by simp at hl; omega)
      exact ⟨j, h1, by simpa [pDigits, hw] using h2⟩
    · rw [if_neg (by unfold IsDigit at hw; exact hw)]
      exact ⟨i, rfl, by simpa [pDigits, hw] using h⟩

theorem skipDigits_at' {json : Bytes} {i : Nat} {s : Bytes} (h : At json i s) :
    ∃ j, skipDigits json (json.length + 1) i = .ok j ∧ At json j (pDigits s) :=
  skipDigits_at _ _ _ h (by have := h.len; omega)

/-- At least one digit. -/
def pDigits1 : Bytes → Option Bytes
  | [] => none
  | x :: r => if IsDigit x then some (pDigits r) else none

/-- Exponent part. -/
def pExp : Bytes → Option Bytes
  | [] => some []
  | c :: r =>
    if c = c! 'e' ∨ c = c! 'E' then
      match r with
      | [] => none
      | d :: r' => if d = c! '+' ∨ d = c! '-' then pDigits1 r' else pDigits1 (d :: r')
    else some (c :: r)

/-- Fraction and exponent part. -/
def pFrac : Bytes → Option Bytes
  | [] => some []
  | c :: r =>
    if c = c! '.' then
      match pDigits1 r with
      | none => none
      | some q => pExp q
    else pExp (c :: r)

/-- Integer part and what follows. -/
def pInt : Bytes → Option Bytes
  | [] => none
  | c :: r => if c = c! '0' then pFrac r else pFrac (pDigits (c :: r))

/-- Number. -/
def pNum : Bytes → Option Bytes
  | [] => none
  | c :: r =>
    if c = c! '-' then
      match r with
      | [] => none
      | d :: r' => if IsDigit d then pInt (d :: r') else none
    else pInt (c :: r)

theorem not_isDigit (c : UInt8) : (c < c! '0' ∨ c > c! '9') ↔ ¬ IsDigit c := by
  unfold IsDigit; grind

theorem validExp_at {json : Bytes} {i : Nat} {s : Bytes} (h : At json i s) :
    VRef json (validExp json i) (pExp s) := by
  unfold validExp
  cases s with
  | nil => rw [if_pos h.nil]; exact ⟨_, rfl, h⟩
  | cons c r =>
    rw [if_neg h.ne, h.idx]
    simp only [ok_bind]
    unfold pExp
    simp only
    by_cases hc : c = c! 'e' ∨ c = c! 'E'
    · rw [if_pos hc, if_pos hc]
      have h1 := h.cons
      cases r with
      | nil => simp only; rw [if_pos h1.nil]; exact ⟨_, rfl⟩
      | cons d r' =>
        simp only
        rw [if_neg h1.ne, h1.idx]
        simp only [ok_bind]
        have key : ∀ (j : Nat) (q : Bytes), At json j q →
            VRef json (if j = json.length then .ok (false, j) else (do
              let c ← idx json j
              if c < c! '0' ∨ c > c! '9' then .ok (false, j)
              else do
                let i ← skipDigits json (json.length + 1) (j + 1)
                .ok (true, i))) (pDigits1 q) := by
          intro j q hq
          cases q with
          | nil => rw [if_pos hq.nil]; exact ⟨_, rfl⟩
          | cons x q =>
            rw [if_neg hq.ne, hq.idx]
            simp only [ok_bind, not_isDigit]
            simp only [pDigits1]
            by_cases hx : IsDigit x
            · rw [if_neg (by simpa using hx), if_pos hx]
              obtain ⟨k, k1, k2⟩ := skipDigits_at' hq.cons
              rw [k1]; exact ⟨_, rfl, k2⟩
            · rw [if_pos hx, if_neg hx]; exact ⟨_, rfl⟩
        by_cases hd : d = c! '+' ∨ d = c! '-'
        · rw [if_pos hd, if_pos hd]
          exact key _ _ h1.cons
        · rw [if_neg hd, if_neg hd]
          exact key _ _ h1
    · rw [if_neg hc, if_neg hc]
      exact ⟨_, rfl, h⟩

theorem validFrac_at {json : Bytes} {i : Nat} {s : Bytes} (h : At json i s) :
    VRef json (validFrac json i) (pFrac s) := by
  unfold validFrac
  cases s with
  | nil => rw [if_pos h.nil]; exact ⟨_, rfl, h⟩
  | cons c r =>
    rw [if_neg h.ne, h.idx]
    simp only [ok_bind]
    unfold pFrac
    simp only
    by_cases hc : c = c! '.'
    · rw [if_pos hc, if_pos hc]
      have h1 := h.cons
      cases r with
      | nil => rw [if_pos h1.nil]; exact ⟨_, rfl⟩
      | cons d r' =>
        rw [if_neg h1.ne, h1.idx]
        simp only [ok_bind, not_isDigit, pDigits1]
        by_cases hd : IsDigit d
        · rw [if_neg (by simpa using hd), if_pos hd]
          obtain ⟨k, k1, k2⟩ := skipDigits_at' h1.cons
          rw [k1]
          exact validExp_at k2
        · rw [if_pos hd, if_neg hd]; exact ⟨_, rfl⟩
    · rw [if_neg hc, if_neg hc]
      exact validExp_at h

theorem validInt_at {json : Bytes} {i : Nat} {s : Bytes} (h : At json i s) :
    VRef json (validInt json i) (pInt s) := by
  unfold validInt
  cases s with
  | nil => rw [if_pos h.nil]; exact ⟨_, rfl⟩
  | cons c r =>
    rw [if_neg h.ne, h.idx]
    simp only [ok_bind]
    unfold pInt
    simp only
    by_cases hc : c = c! '0'
    · rw [if_pos hc, if_pos hc]; exact validFrac_at h.cons
    · rw [if_neg hc, if_neg hc]
      obtain ⟨k, k1, k2⟩ := skipDigits_at' h
      rw [k1]
      exact validFrac_at k2

theorem validNumber_at {json : Bytes} {i : Nat} {c : UInt8} {r : Bytes} (h : At json i (c :: r)) :
    VRef json (validNumber json i) (pNum (c :: r)) := by
  unfold validNumber
  rw [h.idx]
  simp only [ok_bind]
  unfold pNum
  simp only
  by_cases hc : c = c! '-'
  · rw [if_pos hc, if_pos hc]
    have h1 := h.cons
    cases r with
    | nil => simp only; rw [if_pos h1.nil]; exact ⟨_, rfl⟩
    | cons d r' =>
      simp only
      rw [if_neg h1.ne, h1.idx]
      simp only [ok_bind, not_isDigit]
      by_cases hd : IsDigit d
      · rw [if_neg (by simpa using hd), if_pos hd]; exact validInt_at h1
      · rw [if_pos hd, if_neg hd]; exact ⟨_, rfl⟩
  · rw [if_neg hc, if_neg hc]
    exact validInt_at h

/-- Literal. -/
def pLit (lit s : Bytes) : Option Bytes := if lit <+: s then some (s.drop lit.length) else none

theorem validLit_at {json lit : Bytes} {i : Nat} {s : Bytes} (h : At json i s) :
    VRef json (validLit lit json i) (pLit lit s) := by
  unfold validLit pLit
  have hlen := h.len
  by_cases hp : lit <+: s
  · obtain ⟨q, rfl⟩ := hp
    rw [if_pos (by simp at hlen; omega), h.slice]
    simp only [ok_bind, List.prefix_append, if_true, List.drop_left]
    exact ⟨_, rfl, h.append⟩
  · rw [if_neg hp]
    split
    · rename_i hl
      have hs : s = s.take lit.length ++ s.drop lit.length := (List.take_append_drop _ s).symm
      have hll : (s.take lit.length).length = lit.length := by simp; omega
      rw [hs] at h
      rw [h.slice' (by rw [hll])]
      simp only [ok_bind]
      rw [if_neg]
      · exact ⟨_, rfl⟩
      · intro e; exact hp ⟨_, by rw [← e, ← hs]⟩
    · exact ⟨_, rfl⟩

/-- Elements of an array after the opening bracket (and whitespace). -/
def pArrLoop (any : Bytes → Option Bytes) : Nat → Bytes → Option Bytes
  | 0, _ => none
  | n + 1, s =>
    match any s with
    | none => none
    | some r =>
      match pWs r with
      | [] => none
      | c :: q => if c = c! ']' then some q else if c = c! ',' then pArrLoop any n q else none

/-- Array after the opening bracket. -/
def pArr (any : Bytes → Option Bytes) (n : Nat) (s : Bytes) : Option Bytes :=
  match pWs s with
  | [] => none
  | c :: q => if c = c! ']' then some q else pArrLoop any n (c :: q)

/-- Members of an object. -/
def pObjLoop (any : Bytes → Option Bytes) : Nat → Bytes → Option Bytes
  | 0, _ => none
  | _ + 1, [] => none
  | n + 1, c :: s =>
    if c = c! '"' then
      match pStr s with
      | none => none
      | some r =>
        match pWs r with
        | [] => none
        | d :: q =>
          if d = c! ':' then
            match any q with
            | none => none
            | some r2 =>
              match pWs r2 with
              | [] => none
              | e :: q2 =>
                if e = c! '}' then some q2
                else if e = c! ',' then pObjLoop any n (pWs q2)
                else none
          else none
    else none

/-- Object after the opening brace. -/
def pObj (any : Bytes → Option Bytes) (n : Nat) (s : Bytes) : Option Bytes :=
  match pWs s with
  | [] => none
  | c :: q => if c = c! '}' then some q else pObjLoop any n (c :: q)

/-- Any value, after optional whitespace; the first argument bounds the nesting. -/
def pAny : Nat → Bytes → Option Bytes
  | 0, _ => none
  | d + 1, s =>
    match pWs s with
    | [] => none
    | c :: r =>
      if c = c! '{' then pObj (pAny d) (d + 1) r
      else if c = c! '[' then pArr (pAny d) (d + 1) r
      else if c = c! '"' then pStr r
      else if c = c! 't' then pLit b!"true" (c :: r)
      else if c = c! 'f' then pLit b!"false" (c :: r)
      else if c = c! 'n' then pLit b!"null" (c :: r)
      else if c = c! '-' ∨ IsDigit c then pNum (c :: r)
      else none

/-- The whole text. -/
def pText (s : Bytes) : Bool :=
  match pAny (s.length + 1) s with
  | none => false
  | some r => pWs r = []

theorem pWs_length (s : Bytes) : (pWs s).length ≤ s.length := by
  obtain ⟨w, _, h, _⟩ := pWs_spec s
  have := congrArg List.length h
  simp at this; omega

theorem pDigits_length (s : Bytes) : (pDigits s).length ≤ s.length :=
  (List.dropWhile_suffix _).length_le

theorem pStr_length : ∀ {s r : Bytes}, pStr s = some r → r.length < s.length := by
  intro s
  fun_induction pStr s <;> simp_all <;> grind

theorem pDigits1_length {s r : Bytes} (h : pDigits1 s = some r) : r.length < s.length := by
  cases s with
  | nil => simp [pDigits1] at h
  | cons x q =>
    simp only [pDigits1] at h
    split at h
    · have := pDigits_length q
      simp at h; subst h; simp; omega
    · simp at h

theorem pExp_length {s r : Bytes} (h : pExp s = some r) : r.length ≤ s.length := by
  unfold pExp at h
  split at h
  · simp at h; simp [← h]
  · split at h
    · split at h
      · simp at h
      · split at h
        · have := pDigits1_length h; simp; omega
        · have := pDigits1_length h; simp at this ⊢; omega
    · simp at h; simp [← h]

theorem pFrac_length {s r : Bytes} (h : pFrac s = some r) : r.length ≤ s.length := by
  unfold pFrac at h
  split at h
  · simp at h; simp [← h]
  · split at h
    · split at h
      · simp at h
      · rename_i q hq
        have := pDigits1_length hq
        have := pExp_length h
        simp; omega
    · exact pExp_length h

theorem pInt_length {s r : Bytes} (hd : ∀ c ∈ s.head?, IsDigit c) (h : pInt s = some r) :
    r.length < s.length := by
  unfold pInt at h
  split at h
  · simp at h
  · rename_i c q
    split at h
    · have := pFrac_length h; simp; omega
    · have h1 := pFrac_length h
      have h2 : pDigits (c :: q) = pDigits q := by
        have := hd c (by simp)
        simp [pDigits, this]
      have := pDigits_length q
      rw [h2] at h1
      simp; omega

theorem pNum_length {c : UInt8} {q r : Bytes} (hd : c = c! '-' ∨ IsDigit c)
    (h : pNum (c :: q) = some r) : r.length < (c :: q).length := by
  simp only [pNum] at h
  split at h
  · split at h
    · simp at h
    · rename_i d r'
      split at h
      · rename_i hdig
        have := pInt_length (by simpa using hdig) h
        simp at this ⊢; omega
      · simp at h
  · rename_i hm
    exact pInt_length (by simpa using hd.resolve_left hm) h

theorem pLit_length {lit s r : Bytes} (hl : lit ≠ []) (h : pLit lit s = some r) :
    r.length < s.length := by
  unfold pLit at h
  split at h
  · rename_i hp
    have := hp.length_le
    have : 0 < lit.length := List.length_pos_iff.2 hl
    simp at h; subst h; simp; omega
  · simp at h

theorem pArrLoop_length {any : Bytes → Option Bytes} (ha : ∀ s r, any s = some r → r.length < s.length) :
    ∀ {n : Nat} {s r : Bytes}, pArrLoop any n s = some r → r.length < s.length
  | 0, _, _, h => by simp [pArrLoop] at h
  | n + 1, s, r, h => by
    unfold pArrLoop at h
    split at h
    · simp at h
    · rename_i q hq
      have h1 := ha _ _ hq
      have h2 := pWs_length q
      split at h
      · simp at h
      · rename_i c q' hw
        rw [hw] at h2
        simp at h2
        split at h
        · simp at h; subst h; omega
        · split at h
          · have := pArrLoop_length ha h; omega
          · simp at h

theorem pObjLoop_length {any : Bytes → Option Bytes} (ha : ∀ s r, any s = some r → r.length < s.length) :
    ∀ {n : Nat} {s r : Bytes}, pObjLoop any n s = some r → r.length < s.length
  | 0, _, _, h => by simp [pObjLoop] at h
  | n + 1, [], r, h => by simp [pObjLoop] at h
  | n + 1, c :: s, r, h => by
    unfold pObjLoop at h
    split at h
    · split at h
      · simp at h
      · rename_i q hq
        have h1 := pStr_length hq
        have h2 := pWs_length q
        split at h
        · simp at h
        · rename_i d q' hw
          rw [hw] at h2
          simp at h2
          split at h
          · split at h
            · simp at h
            · rename_i r2 hr2
              have h3 := ha _ _ hr2
              have h4 := pWs_length r2
              split at h
              · simp at h
              · rename_i e q2 hw2
                rw [hw2] at h4
                simp at h4
                split at h
                · simp at h; subst h; simp; omega
                · split at h
                  · have := pObjLoop_length ha h
                    have := pWs_length q2
                    simp; omega
                  · simp at h
          · simp at h
    · simp at h

theorem pAny_length : ∀ {d : Nat} {s r : Bytes}, pAny d s = some r → r.length < s.length
  | 0, _, _, h => by simp [pAny] at h
  | d + 1, s, r, h => by
    have ih : ∀ s r, pAny d s = some r → r.length < s.length := fun _ _ => pAny_length
    have h0 := pWs_length s
    unfold pAny at h
    split at h
    · simp at h
    · rename_i c q hw
      rw [hw] at h0
      simp at h0
      split at h
      · unfold pObj at h
        have h1 := pWs_length q
        split at h
        · simp at h
        · rename_i e q' hw'
          rw [hw'] at h1
          simp at h1
          split at h
          · simp at h; subst h; omega
          · have := pObjLoop_length ih h; simp at this; omega
      · split at h
        · unfold pArr at h
          have h1 := pWs_length q
          split at h
          · simp at h
          · rename_i e q' hw'
            rw [hw'] at h1
            simp at h1
            split at h
            · simp at h; subst h; omega
            · have := pArrLoop_length ih h; simp at this; omega
        · split at h
          · have := pStr_length h; omega
          · split at h
            · have := pLit_length (by simp) h; simp at this; omega
            · split at h
              · have := pLit_length (by simp) h; simp at this; omega
              · split at h
                · have := pLit_length (by simp) h; simp at this; omega
                · split at h
                  · rename_i hd
                    have := pNum_length hd h; simp at this; omega
                  · simp at h

/-- `any` at every position with a suffix shorter than `L` agrees with the parser `p`. -/
def AnyRef (json : Bytes) (any : Nat → Res (Bool × Nat)) (p : Bytes → Option Bytes) (L : Nat) : Prop :=
  ∀ i s, At json i s → s.length < L → VRef json (any i) (p s)

theorem validArrayLoop_at {json : Bytes} {any p L} (ha : AnyRef json any p L)
    (hp : ∀ s r, p s = some r → r.length < s.length) :
    ∀ (n m i : Nat) (s : Bytes), At json i s → s.length < L → s.length < n → s.length < m →
      VRef json (validArrayLoop any json n i) (pArrLoop p m s)
  | 0, _, _, _, _, _, h, _ => by omega
  | _ + 1, 0, _, _, _, _, _, h => by omega
  | n + 1, m + 1, i, s, h, hL, hn, hm => by
    unfold validArrayLoop pArrLoop
    have h1 := ha i s h hL
    cases hs : p s with
    | none =>
      rw [hs] at h1
      obtain ⟨j, hj⟩ := h1
      rw [hj]; exact ⟨_, rfl⟩
    | some r =>
      rw [hs] at h1
      obtain ⟨j, hj, hat⟩ := h1
      have hlt := hp _ _ hs
      rw [hj]
      simp only [ok_bind, Bool.not_true, Bool.false_eq_true, if_false]
      obtain ⟨k, hk, hatk⟩ := stripWs_at hat
      have hwl := pWs_length r
      rw [hk]
      simp only [ok_bind]
      cases hw : pWs r with
      | nil => rw [hw] at hatk; rw [if_pos hatk.nil]; exact ⟨_, rfl⟩
      | cons c q =>
        rw [hw] at hatk hwl
        rw [if_neg hatk.ne, hatk.idx]
        simp only [ok_bind]
        by_cases c1 : c = c! ']'
        · rw [if_pos c1, if_pos c1]; exact ⟨_, rfl, hatk.cons⟩
        rw [if_neg c1, if_neg c1]
        by_cases c2 : c = c! ','
        · rw [if_neg (by simpa using c2), if_pos c2]
          simp at hwl
          exact validArrayLoop_at ha hp n m _ q hatk.cons (by omega) (by omega) (by omega)
        · rw [if_pos c2, if_neg c2]; exact ⟨_, rfl⟩

theorem validArray_at {json : Bytes} {any p L} (ha : AnyRef json any p L)
    (hp : ∀ s r, p s = some r → r.length < s.length) {i m : Nat} {c : UInt8} {s : Bytes}
    (h : At json i (c :: s)) (hL : s.length < L) (hm : s.length < m) :
    VRef json (validArray any json i) (pArr p m s) := by
  unfold validArray pArr
  obtain ⟨k, hk, hatk⟩ := stripWs_at h.cons
  have hwl := pWs_length s
  have hlen := h.len
  rw [hk]
  simp only [ok_bind]
  cases hw : pWs s with
  | nil => rw [hw] at hatk; rw [if_pos hatk.nil]; exact ⟨_, rfl⟩
  | cons c q =>
    rw [hw] at hatk hwl
    simp at hlen hwl
    rw [if_neg hatk.ne, hatk.idx]
    simp only [ok_bind]
    by_cases c1 : c = c! ']'
    · rw [if_pos c1, if_pos c1]; exact ⟨_, rfl, hatk.cons⟩
    rw [if_neg c1, if_neg c1]
    exact validArrayLoop_at ha hp _ _ _ _ hatk (by simp; omega) (by simp; omega) (by simp; omega)

theorem validObjectLoop_at {json : Bytes} {any p L} (ha : AnyRef json any p L)
    (hp : ∀ s r, p s = some r → r.length < s.length) :
    ∀ (n m i : Nat) (s : Bytes), At json i s → s ≠ [] → s.length < L → s.length < n → s.length < m →
      VRef json (validObjectLoop any json n i) (pObjLoop p m s)
  | 0, _, _, _, _, _, _, h, _ => by omega
  | _ + 1, 0, _, _, _, _, _, _, h => by omega
  | _ + 1, _ + 1, _, [], _, h, _, _, _ => absurd rfl h
  | n + 1, m + 1, i, c :: s, h, _, hL, hn, hm => by
    unfold validObjectLoop pObjLoop
    rw [h.idx]
    simp only [ok_bind]
    by_cases c0 : c = c! '"'
    · rw [if_neg (by simpa using c0), if_pos c0]
      have h1 := validString_at h
      cases hs : pStr s with
      | none =>
        rw [hs] at h1
        obtain ⟨j, hj⟩ := h1
        rw [hj]; exact ⟨_, rfl⟩
      | some r =>
        rw [hs] at h1
        obtain ⟨j, hj, hat⟩ := h1
        have hlt := pStr_length hs
        rw [hj]
        simp only [ok_bind, Bool.not_true, Bool.false_eq_true, if_false]
        obtain ⟨k, hk, hatk⟩ := stripWs_at hat
        have hwl := pWs_length r
        rw [hk]
        simp only [ok_bind]
        cases hw : pWs r with
        | nil => rw [hw] at hatk; rw [if_pos hatk.nil]; exact ⟨_, rfl⟩
        | cons d q =>
          rw [hw] at hatk hwl
          simp at hwl hn hm hL
          rw [if_neg hatk.ne, hatk.idx]
          simp only [ok_bind]
          by_cases c1 : d = c! ':'
          · rw [if_neg (by simpa using c1), if_pos c1]
            have h2 := ha _ _ hatk.cons (by omega)
            cases hq : p q with
            | none =>
              rw [hq] at h2
              obtain ⟨j, hj⟩ := h2
              rw [hj]; exact ⟨_, rfl⟩
            | some r2 =>
              rw [hq] at h2
              obtain ⟨j, hj, hat⟩ := h2
              have hlt2 := hp _ _ hq
              rw [hj]
              simp only [ok_bind, Bool.not_true, Bool.false_eq_true, if_false]
              obtain ⟨k, hk, hatk⟩ := stripWs_at hat
              have hwl2 := pWs_length r2
              rw [hk]
              simp only [ok_bind]
              cases hw : pWs r2 with
              | nil => rw [hw] at hatk; rw [if_pos hatk.nil]; exact ⟨_, rfl⟩
              | cons e q2 =>
                rw [hw] at hatk hwl2
                simp at hwl2
                rw [if_neg hatk.ne, hatk.idx]
                simp only [ok_bind]
                by_cases e1 : e = c! '}'
                · rw [if_pos e1, if_pos e1]; exact ⟨_, rfl, hatk.cons⟩
                rw [if_neg e1, if_neg e1]
                by_cases e2 : e = c! ','
                · rw [if_neg (by simpa using e2), if_pos e2]
                  obtain ⟨k, hk, hatk⟩ := stripWs_at hatk.cons
                  have hwl3 := pWs_length q2
                  rw [hk]
                  simp only [ok_bind]
                  cases hw3 : pWs q2 with
                  | nil =>
                    rw [hw3] at hatk; rw [if_pos hatk.nil]
                    cases m <;> exact ⟨_, rfl⟩
                  | cons f q3 =>
                    rw [hw3] at hatk hwl3
                    rw [if_neg hatk.ne]
                    exact validObjectLoop_at ha hp n m _ _ hatk (by simp) (by omega) (by omega) (by omega)
                · rw [if_pos e2, if_neg e2]; exact ⟨_, rfl⟩
          · rw [if_pos c1, if_neg c1]; exact ⟨_, rfl⟩
    · rw [if_pos c0, if_neg c0]; exact ⟨_, rfl⟩

theorem validObject_at {json : Bytes} {any p L} (ha : AnyRef json any p L)
    (hp : ∀ s r, p s = some r → r.length < s.length) {i m : Nat} {c : UInt8} {s : Bytes}
    (h : At json i (c :: s)) (hL : s.length < L) (hm : s.length < m) :
    VRef json (validObject any json i) (pObj p m s) := by
  unfold validObject pObj
  obtain ⟨k, hk, hatk⟩ := stripWs_at h.cons
  have hwl := pWs_length s
  have hlen := h.len
  rw [hk]
  simp only [ok_bind]
  cases hw : pWs s with
  | nil => rw [hw] at hatk; rw [if_pos hatk.nil]; exact ⟨_, rfl⟩
  | cons c q =>
    rw [hw] at hatk hwl
    simp at hlen hwl
    rw [if_neg hatk.ne, hatk.idx]
    simp only [ok_bind]
    by_cases c1 : c = c! '}'
    · rw [if_pos c1, if_pos c1]; exact ⟨_, rfl, hatk.cons⟩
    rw [if_neg c1, if_neg c1]
    exact validObjectLoop_at ha hp _ _ _ _ hatk (by simp) (by simp; omega) (by simp; omega) (by simp; omega)

theorem validAnyLoop_at {json : Bytes} {d : Nat} (ha : AnyRef json (validAny json d) (pAny d) d) :
    ∀ (n i : Nat) (s : Bytes), At json i s → s.length < n → s.length < d + 1 →
      VRef json (validAnyLoop (validAny json d) json n i) (pAny (d + 1) s)
  | 0, _, _, _, h, _ => by omega
  | n + 1, i, [], h, _, _ => by
    have := h.nil
    unfold validAnyLoop
    rw [if_neg (by omega)]
    exact ⟨_, rfl⟩
  | n + 1, i, c :: r, h, hl, hd => by
    unfold validAnyLoop
    rw [if_pos h.lt, h.idx]
    simp only [ok_bind]
    by_cases hw : IsWs c
    · rw [if_pos ((isspace_iff c).2 hw)]
      simp at hl hd
      have := validAnyLoop_at ha n (i + 1) r h.cons (by omega) (by omega)
      have e : pAny (d + 1) (c :: r) = pAny (d + 1) r := by
        unfold pAny
        have : pWs (c :: r) = pWs r := by simp [pWs, hw]
        rw [this]
      rw [e]; exact this
    · rw [if_neg (by simpa using (not_congr (isspace_iff c)).2 hw)]
      unfold pAny
      rw [pWs_cons_not hw]
      simp only
      simp at hl hd
      by_cases c1 : c = c! '{'
      · rw [if_pos c1, if_pos c1]
        exact validObject_at ha (fun _ _ => pAny_length) h (by omega) (by omega)
      rw [if_neg c1, if_neg c1]
      by_cases c2 : c = c! '['
      · rw [if_pos c2, if_pos c2]
        exact validArray_at ha (fun _ _ => pAny_length) h (by omega) (by omega)
      rw [if_neg c2, if_neg c2]
      by_cases c3 : c = c! '"'
      · rw [if_pos c3, if_pos c3]; exact validString_at h
      rw [if_neg c3, if_neg c3]
      by_cases c4 : c = c! 't'
      · rw [if_pos c4, if_pos c4]; exact validLit_at h
      rw [if_neg c4, if_neg c4]
      by_cases c5 : c = c! 'f'
      · rw [if_pos c5, if_pos c5]; exact validLit_at h
      rw [if_neg c5, if_neg c5]
      by_cases c6 : c = c! 'n'
      · rw [if_pos c6, if_pos c6]; exact validLit_at h
      rw [if_neg c6, if_neg c6]
      by_cases c7 : c = c! '-' ∨ (c ≥ c! '0' ∧ c ≤ c! '9')
      · rw [if_pos c7, if_pos (by unfold IsDigit; exact c7)]; exact validNumber_at h
      · rw [if_neg c7, if_neg (by unfold IsDigit; exact c7)]; exact ⟨_, rfl⟩

theorem validAny_at {json : Bytes} : ∀ (d : Nat), AnyRef json (validAny json d) (pAny d) d
  | 0 => fun _ _ _ h => by omega
  | d + 1 => fun i s h hd =>
    validAnyLoop_at (validAny_at d) _ _ _ h (by have := h.len; omega) hd

theorem validTrail_at {json : Bytes} : ∀ (n i : Nat) (s : Bytes), At json i s → s.length < n →
    validTrail json n i = .ok (decide (pWs s = []))
  | 0, _, _, _, h => by omega
  | n + 1, i, [], h, _ => by
    have := h.nil
    simp [validTrail, this, pWs]
  | n + 1, i, c :: r, h, hl => by
    unfold validTrail
    rw [if_pos h.lt, h.idx]
    simp only [ok_bind]
    by_cases hw : IsWs c
    · rw [if_neg (by simpa using (isspace_iff c).2 hw)]
      rw [validTrail_at n (i + 1) r h.cons (by simp at hl; omega)]
      have : pWs (c :: r) = pWs r := by simp [pWs, hw]
      rw [this]
    · rw [if_pos (by simpa using (not_congr (isspace_iff c)).2 hw)]
      rw [pWs_cons_not hw]; simp

/-- The validator computes the parser's verdict and never faults. -/
theorem valid_eq_pText (json : Bytes) : valid json = .ok (pText json) := by
  unfold valid pText
  have h := validAny_at (json := json) (json.length + 1) 0 json (At.zero json) (by omega)
  cases hp : pAny (json.length + 1) json with
  | none =>
    rw [hp] at h
    obtain ⟨j, hj⟩ := h
    rw [hj]; rfl
  | some r =>
    rw [hp] at h
    obtain ⟨j, hj, hat⟩ := h
    rw [hj]
    simp only [ok_bind, Bool.not_true, Bool.false_eq_true, if_false]
    exact validTrail_at _ _ _ hat (by have := hat.len; omega)

end Gjson
