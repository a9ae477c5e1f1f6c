import Verif.Lemmas.Balanced
import Verif.Lemmas.Path
import Verif.Lemmas.Leaf
import Verif.SpecCut
/-
`path_next` on every sequence of bytes.
-/
namespace Gjson
open Spec

/-! ### Brackets and quotes -/

theorem qStr_quoted {b : Bytes} (h : QuotedBody b) : ∀ r, ∃ f, qStr (b ++ c! '"' :: r) = some (b ++ [c! '"'], f, r) := by
  induction h with
  | nil => intro r; exact ⟨false, by rw [List.nil_append, qStr.eq_def]; simp⟩
  | @plain c b h1 h2 _ ih =>
    intro r
    obtain ⟨f, hf⟩ := ih r
    exact ⟨f, by rw [List.cons_append, qStr.eq_def]; simp [h1, h2, hf]⟩
  | @esc c b _ ih =>
    intro r
    obtain ⟨f, hf⟩ := ih r
    exact ⟨true, by rw [List.cons_append, List.cons_append, qStr.eq_def]; simp [hf, setEsc]⟩

theorem quoted_qStr : ∀ {s b q : Bytes} {f : Bool}, qStr s = some (b, f, q) → ∃ b', QuotedBody b' ∧ b = b' ++ [c! '"'] := by
  intro s
  fun_induction qStr s with
  | case1 => intro b q f h; cases h
  | case2 r => intro b q f h; cases h; exact ⟨[], .nil, rfl⟩
  | case3 => intro b q f h; cases h
  | case4 e r' h1 ih =>
    intro b q f h
    cases hq : qStr r' with
    | none => rw [hq] at h; simp [setEsc] at h
    | some x =>
      obtain ⟨b2, f2, q2⟩ := x
      rw [hq] at h
      simp [setEsc] at h
      obtain ⟨b', h1, rfl⟩ := ih hq
      exact ⟨_, .esc h1, h.1.symm⟩
  | case5 c r h1 h2 ih =>
    intro b q f h
    cases hq : qStr r with
    | none => rw [hq] at h; simp at h
    | some x =>
      obtain ⟨b2, f2, q2⟩ := x
      rw [hq] at h
      simp at h
      obtain ⟨b', h3, rfl⟩ := ih hq
      exact ⟨_, .plain h1 h2 h3, h.1.symm⟩

/-- Text that closes `d` brackets. -/
inductive Closing : Nat → Bytes → Prop
  | one {b : Bytes} {c : UInt8} : Balanced b → c ∈ b!")]}" → Closing 1 (b ++ [c])
  | more {b r : Bytes} {c : UInt8} {d : Nat} : Balanced b → c ∈ b!")]}" → Closing d r → Closing (d + 1) (b ++ c :: r)

theorem Closing.behind {d : Nat} {a r : Bytes} (ha : Balanced a) (h : Closing d r) : Closing d (a ++ r) := by
  cases h with
  | one hb hc => rw [← List.append_assoc]; exact .one (Spec.Balanced.append ha hb) hc
  | more hb hc h => rw [← List.append_assoc]; exact .more (Spec.Balanced.append ha hb) hc h

theorem Closing.opened {d : Nat} {r : Bytes} {o : UInt8} (ho : o ∈ b!"([{") (hd : 1 ≤ d) (h : Closing (d + 1) r) : Closing d (o :: r) := by
  cases h with
  | one => omega
  | @more b r c _ hb hc h =>
    have : o :: (b ++ c :: r) = (o :: (b ++ c :: [])) ++ r := by simp
    rw [this]
    exact h.behind (.group ho hc hb .nil)

theorem sq_closing : ∀ (n : Nat) {d : Nat} {s b q : Bytes}, s.length < n → 1 ≤ d → sq d false s = some (b, q) → Closing d b
  | 0, _, _, _, _, h, _, _ => by omega
  | n + 1, d, s, b, q, hl, hd, h => by
    cases s with
    | nil => simp [sq] at h
    | cons c r =>
      have hl' : r.length < n := by simp at hl; omega
      have push : ∀ {p : Bytes} {o : Option (Bytes × Bytes)}, push1 p o = some (b, q) → ∃ b', o = some (b', q) ∧ b = p ++ b' := by
        intro p o h
        cases o with
        | none => simp at h
        | some x => obtain ⟨b', q'⟩ := x; simp at h; exact ⟨b', by rw [h.2], h.1.symm⟩
      rw [sq.eq_def] at h
      simp only at h
      split at h
      · rename_i hc
        obtain ⟨b1, h1, rfl⟩ := push h
        rw [sq_true] at h1
        cases hq : qStr r with
        | none => rw [hq] at h1; cases h1
        | some x =>
          obtain ⟨b2, f, q2⟩ := x
          rw [hq] at h1
          simp only at h1
          cases hs : sq d false q2 with
          | none => rw [hs] at h1; simp at h1
          | some y =>
            obtain ⟨b3, q3⟩ := y
            rw [hs] at h1
            simp at h1
            obtain ⟨rfl, rfl⟩ := h1
            obtain ⟨b', h2, rfl⟩ := quoted_qStr hq
            have hlq := congrArg List.length (qStr_append hq)
            have := sq_closing n (by simp at hlq; omega) hd hs
            subst hc
            have e : [c! '"'] ++ (b' ++ [c! '"'] ++ b3) = (c! '"' :: (b' ++ c! '"' :: [])) ++ b3 := by simp
            rw [e]
            exact this.behind (.str h2 .nil)
      · rename_i c1
        split at h
        · rename_i c2
          obtain ⟨b1, h1, rfl⟩ := push h
          have := sq_closing n hl' (by omega) h1
          exact this.opened (by unfold OpenTok at c2; simp only [List.mem_cons, List.not_mem_nil, or_false]; grind) hd
        · rename_i c2
          split at h
          · rename_i c3
            have hc : c ∈ b!")]}" := by unfold CloseTok at c3; simp only [List.mem_cons, List.not_mem_nil, or_false]; grind
            split at h
            · cases h
              obtain rfl : d = 1 := by omega
              exact .one .nil hc
            · rename_i c4
              obtain ⟨b1, h1, rfl⟩ := push h
              have := sq_closing n hl' (by omega) h1
              obtain ⟨d, rfl⟩ : ∃ e, d = e + 1 := ⟨d - 1, by omega⟩
              exact .more .nil hc this
          · rename_i c3
            split at h
            · rename_i c4
              cases r with
              | nil => simp at h
              | cons e r =>
                obtain ⟨b1, h1, rfl⟩ := push h
                have := sq_closing n (by simp at hl'; omega) hd h1
                subst c4
                exact this.behind (.esc .nil)
            · rename_i c4
              obtain ⟨b1, h1, rfl⟩ := push h
              have := sq_closing n hl' hd h1
              refine this.behind (.plain ?_ .nil)
              unfold OpenTok at c2; unfold CloseTok at c3
              simp only [bracketSpecial, List.mem_cons, List.not_mem_nil, or_false]
              grind

/-- `scan_squash` in terms of balanced brackets. -/
theorem sq_cases (s : Bytes) :
    (∃ b c r, s = b ++ c :: r ∧ Balanced b ∧ c ∈ b!")]}" ∧ sq 1 false s = some (b ++ [c], r)) ∨
    (sq 1 false s = none ∧ ∀ o, o ∈ b!"([{" → NeverClosed (o :: s)) := by
  cases h : sq 1 false s with
  | some x =>
    obtain ⟨b, q⟩ := x
    left
    have h1 := sq_closing (s.length + 1) (Nat.lt_succ_self _) (Nat.le_refl 1) h
    have h2 := (sq_append h).1
    generalize hd : 1 = d at h1
    cases h1 with
    | @one b c hb hc => exact ⟨b, c, q, by simpa using h2, hb, hc, rfl⟩
    | more _ _ h' => cases h' <;> omega
  | none =>
    right
    refine ⟨rfl, fun o ho g r e => ⟨?_, ?_⟩⟩
    · rintro ⟨o', b, c, _, hc, hb, rfl⟩
      simp only [List.cons_append, List.cons.injEq, List.append_assoc, List.nil_append] at e
      rw [e.2, sq_group hb (closeTok_of hc)] at h
      cases h
    · rintro ⟨b, hb, rfl⟩
      simp only [List.cons_append, List.cons.injEq] at e
      rw [e.1] at ho
      simp at ho

/-- Strings in the same terms. -/
theorem qStr_cases (s : Bytes) :
    (∃ b r f, s = b ++ c! '"' :: r ∧ QuotedBody b ∧ qStr s = some (b ++ [c! '"'], f, r)) ∨ (qStr s = none ∧ NeverClosed (c! '"' :: s)) := by
  cases h : qStr s with
  | some x =>
    obtain ⟨b, f, q⟩ := x
    left
    obtain ⟨b', h1, rfl⟩ := quoted_qStr h
    exact ⟨b', q, f, by simpa using qStr_append h, h1, rfl⟩
  | none =>
    right
    refine ⟨rfl, fun g r e => ⟨?_, ?_⟩⟩
    · rintro ⟨o, b, c, ho, _, _, rfl⟩
      simp only [List.cons_append, List.cons.injEq] at e
      rw [← e.1] at ho
      simp at ho
    · rintro ⟨b, hb, rfl⟩
      simp only [List.cons_append, List.cons.injEq, List.append_assoc, List.nil_append, true_and] at e
      obtain ⟨f, hf⟩ := qStr_quoted hb r
      rw [e, hf] at h
      cases h

theorem sq_never {o : UInt8} {s : Bytes} (h : NeverClosed (o :: s)) (ho : o ∈ b!"([{") : sq 1 false s = none := by
  rcases sq_cases s with ⟨b, c, r, rfl, hb, hc, _⟩ | ⟨h, _⟩
  · exact absurd ⟨o, b, c, ho, hc, hb, rfl⟩ (h (o :: (b ++ [c])) r (by simp)).1
  · exact h

theorem qStr_never {s : Bytes} (h : NeverClosed (c! '"' :: s)) : qStr s = none := by
  rcases qStr_cases s with ⟨b, r, f, rfl, hb, _⟩ | ⟨h, _⟩
  · exact absurd ⟨b, hb, rfl⟩ (h (c! '"' :: (b ++ [c! '"'])) r (by simp)).2
  · exact h

/-! ### The loop -/

theorem compOf_loop {extra : Bytes} {modi : Bool} {t : Bytes} : ∀ {k : Bytes} {e w : Bool},
    CompOf (if modi then b!".|:" else b!".|") k e w → ∀ (n i : Nat) (e0 w0 : Bool), At extra i (k ++ t) → k.length + t.length < n →
      ∃ m, t.length < m ∧ pathNextLoop extra modi n i e0 w0 = pathNextLoop extra modi m (i + k.length) (e0 || e) (w0 || w) := by
  intro k e w hk
  induction hk with
  | nil =>
    intro n i e0 w0 h hl
    exact ⟨n, by simpa using hl, by simp⟩
  | @esc c r e w _ ih =>
    intro n i e0 w0 h hl
    obtain ⟨n, rfl⟩ : ∃ m, n = m + 1 := ⟨n - 1, by omega⟩
    rw [List.cons_append, List.cons_append] at h
    rw [pathNextLoop.eq_def]
    simp only
    rw [if_pos h.lt, h.idx]
    simp only [ok_bind, if_true]
    rw [if_neg h.cons.ne]
    obtain ⟨m, h1, h2⟩ := ih n (i + 1 + 1) true w0 h.cons.cons (by simp at hl; omega)
    refine ⟨m, h1, ?_⟩
    rw [h2]
    simp only [List.length_cons, Bool.true_or, Bool.or_true]
    rw [show i + 1 + 1 + r.length = i + (r.length + 1 + 1) by omega]
  | @wild c r e w hc _ ih =>
    intro n i e0 w0 h hl
    obtain ⟨n, rfl⟩ : ∃ m, n = m + 1 := ⟨n - 1, by omega⟩
    rw [List.cons_append] at h
    simp only [List.mem_cons, List.not_mem_nil, or_false] at hc
    rw [pathNextLoop.eq_def]
    simp only
    rw [if_pos h.lt, h.idx]
    simp only [ok_bind]
    rw [if_neg (by rcases hc with rfl | rfl <;> decide), if_neg (by rcases hc with rfl | rfl <;> simp), if_pos hc]
    obtain ⟨m, h1, h2⟩ := ih n (i + 1) e0 true h.cons (by simp at hl; omega)
    refine ⟨m, h1, ?_⟩
    rw [h2]
    simp only [List.length_cons, Bool.true_or, Bool.or_true]
    rw [show i + 1 + r.length = i + (r.length + 1) by omega]
  | @plain c r e w hc hs _ ih =>
    intro n i e0 w0 h hl
    obtain ⟨n, rfl⟩ : ∃ m, n = m + 1 := ⟨n - 1, by omega⟩
    rw [List.cons_append] at h
    simp only [List.mem_cons, List.not_mem_nil, or_false, not_or] at hc
    have h1 : c ≠ c! '.' ∧ c ≠ c! '|' ∧ ¬ (modi = true ∧ c = c! ':') := by
      cases modi <;> simp only [if_true, Bool.false_eq_true, if_false, List.mem_cons, List.not_mem_nil, or_false, not_or] at hs ⊢ <;> simp [hs]
    rw [pathNextLoop.eq_def]
    simp only
    rw [if_pos h.lt, h.idx]
    simp only [ok_bind]
    rw [if_neg hc.1, if_neg h1.2.2, if_neg (by simp [hc.2]), if_neg (by simp [h1.1, h1.2.1])]
    obtain ⟨m, g1, g2⟩ := ih n (i + 1) e0 w0 h.cons (by simp at hl; omega)
    refine ⟨m, g1, ?_⟩
    rw [g2]
    simp only [List.length_cons]
    rw [show i + 1 + r.length = i + (r.length + 1) by omega]

theorem afterComp_sep {t rest : Bytes} {sep : UInt8} (h : AfterComp t sep rest) :
    t = [] ∧ sep = 0 ∧ rest = [] ∨ t = sep :: rest ∧ (sep = c! '.' ∨ sep = c! '|') ∧ sep ≠ 0 := by
  cases h with
  | nothing => exact .inl ⟨rfl, rfl, rfl⟩
  | sep h =>
    simp only [List.mem_cons, List.not_mem_nil, or_false] at h
    exact .inr ⟨rfl, h, by rcases h with rfl | rfl <;> decide⟩

/-- The end of `path_next`, once the loop has stopped behind `k`. -/
theorem plain_end {k t rest : Bytes} {e w modi : Bool} {sep : UInt8} {marg : Nat} (ht : AfterComp t sep rest)
    (h : pathNextLoop (k ++ t) modi ((k ++ t).length + 1) 0 false false = .ok (k.length + (if sep = 0 then 0 else 1), sep, e, w, marg)) :
    pathNextPlain (k ++ t) modi = .ok ⟨k, e, w, sep, marg, rest⟩ := by
  unfold pathNextPlain
  rw [h]
  simp only [ok_bind]
  rcases afterComp_sep ht with ⟨rfl, rfl, rfl⟩ | ⟨rfl, _, h0⟩
  · rw [if_pos rfl, if_pos rfl, List.append_nil]
    rw [show sliceFrom k (k.length + 0) = .ok [] from (At.end k).sliceFrom]
    rfl
  · rw [if_neg h0, if_neg h0, if_neg (by omega)]
    have hA : At (k ++ sep :: rest) 0 (k ++ sep :: rest) := At.zero _
    rw [hA.slice' (t := k) (by omega), (hA.append' (j := k.length) (by omega)).cons.sliceFrom]
    rfl

theorem loop_after {extra : Bytes} {modi : Bool} {n i : Nat} {e w : Bool} {t rest : Bytes} {sep : UInt8} (ht : AfterComp t sep rest)
    (h : At extra i t) (hl : t.length < n) : pathNextLoop extra modi n i e w = .ok (i + (if sep = 0 then 0 else 1), sep, e, w, 0) := by
  obtain ⟨n, rfl⟩ : ∃ m, n = m + 1 := ⟨n - 1, by omega⟩
  rw [pathNextLoop.eq_def]
  simp only
  rcases afterComp_sep ht with ⟨rfl, rfl, rfl⟩ | ⟨rfl, hs, h0⟩
  · rw [if_neg (by have := h.nil; omega)]; simp
  · rw [if_pos h.lt, h.idx]
    simp only [ok_bind]
    rw [if_neg (by rcases hs with rfl | rfl <;> decide), if_neg (by rcases hs with rfl | rfl <;> simp),
      if_neg (by rcases hs with rfl | rfl <;> decide), if_pos hs, if_neg h0]

theorem loop_backslash {extra : Bytes} {modi : Bool} {n i : Nat} {e w : Bool} (h : At extra i [c! '\\']) (hl : 1 < n) :
    pathNextLoop extra modi n i e w = .ok (i + 1, 0, true, w, 0) := by
  obtain ⟨n, rfl⟩ : ∃ m, n = m + 1 := ⟨n - 1, by omega⟩
  rw [pathNextLoop.eq_def]
  simp only
  rw [if_pos h.lt, h.idx]
  simp only [ok_bind, if_true]
  rw [if_pos h.cons.nil]

theorem plain_comp {k t rest : Bytes} {e w modi : Bool} {sep : UInt8} (hk : CompOf (if modi then b!".|:" else b!".|") k e w)
    (ht : AfterComp t sep rest) : pathNextPlain (k ++ t) modi = .ok ⟨k, e, w, sep, 0, rest⟩ := by
  obtain ⟨m, h1, h2⟩ := compOf_loop (extra := k ++ t) hk ((k ++ t).length + 1) 0 false false (At.zero _) (by simp)
  refine plain_end ht ?_
  rw [h2, loop_after ht ((At.zero (k ++ t)).append' rfl) h1]
  simp

theorem plain_backslash {k : Bytes} {e w modi : Bool} (hk : CompOf (if modi then b!".|:" else b!".|") k e w) :
    pathNextPlain (k ++ [c! '\\']) modi = .ok ⟨k ++ [c! '\\'], true, w, 0, 0, []⟩ := by
  obtain ⟨m, h1, h2⟩ := compOf_loop (extra := k ++ [c! '\\']) hk ((k ++ [c! '\\']).length + 1) 0 false false (At.zero _) (by simp)
  have := plain_end (k := k ++ [c! '\\']) (t := []) (rest := []) (e := true) (w := w) (modi := modi) (marg := 0) .nothing
    (by rw [List.append_nil, h2, loop_backslash ((At.zero (k ++ [c! '\\'])).append' rfl) (by simpa using h1)]; simp)
  rwa [List.append_nil] at this

theorem pathArgLoop_after {extra : Bytes} {t rest : Bytes} {sep : UInt8} (ht : AfterComp t sep rest) : ∀ (a : Bytes) (n i : Nat),
    (∀ c ∈ a, c ∉ b!".|") → At extra i (a ++ t) → a.length + t.length < n →
    pathArgLoop extra n i = .ok (i + a.length + (if sep = 0 then 0 else 1), sep)
  | _, 0, _, _, _, hl => by omega
  | [], n + 1, i, _, h, hl => by
    rw [List.nil_append] at h
    rw [pathArgLoop.eq_def]
    simp only
    rcases afterComp_sep ht with ⟨rfl, rfl, rfl⟩ | ⟨rfl, hs, h0⟩
    · rw [if_neg (by have := h.nil; omega)]; simp
    · rw [if_pos h.lt, h.idx]
      simp only [ok_bind]
      rw [if_pos hs, if_neg h0]; simp
  | c :: a, n + 1, i, ha, h, hl => by
    rw [List.cons_append] at h
    have hc := ha c (by simp)
    simp only [List.mem_cons, List.not_mem_nil, or_false] at hc
    rw [pathArgLoop.eq_def]
    simp only
    rw [if_pos h.lt, h.idx]
    simp only [ok_bind]
    rw [if_neg hc, pathArgLoop_after ht a n (i + 1) (fun c hc => ha c (by simp [hc])) h.cons (by simp at hl; omega)]
    simp only [List.length_cons]
    rw [show i + 1 + a.length = i + (a.length + 1) by omega]

/-- The loop at the colon of a modifier. -/
theorem loop_argument {extra : Bytes} {n i : Nat} {e w : Bool} {a t rest : Bytes} {sep : UInt8} (ht : AfterComp t sep rest)
    (ha : ∀ c ∈ a, c ∉ b!".|") (hh : ∀ c ∈ a.head?, c ∉ b!"{[\"") (h : At extra i (c! ':' :: (a ++ t))) (hl : 0 < n) :
    pathNextLoop extra true n i e w = .ok (i + 1 + a.length + (if sep = 0 then 0 else 1), sep, e, w, i) := by
  obtain ⟨n, rfl⟩ : ∃ m, n = m + 1 := ⟨n - 1, by omega⟩
  rw [pathNextLoop.eq_def]
  simp only
  rw [if_pos h.lt, h.idx]
  simp only [ok_bind]
  rw [if_neg (by decide), if_pos (by simp)]
  cases hs : a ++ t with
  | nil =>
    obtain ⟨rfl, rfl⟩ := List.append_eq_nil_iff.1 hs
    rcases afterComp_sep ht with ⟨_, rfl, rfl⟩ | ⟨h1, _⟩
    · rw [if_pos h.cons.nil]; rfl
    · cases h1
  | cons c r =>
    have h' := h.cons
    have hla := h'.len
    rw [hs] at h'
    rw [if_neg h'.ne, h'.idx]
    simp only [ok_bind]
    have hc : ¬ (c = c! '{' ∨ c = c! '[' ∨ c = c! '"') := by
      cases a with
      | nil =>
        rcases afterComp_sep ht with ⟨rfl, _, _⟩ | ⟨rfl, h1, _⟩
        · cases hs
        · simp only [List.nil_append, List.cons.injEq] at hs
          obtain ⟨rfl, _⟩ := hs
          rcases h1 with rfl | rfl <;> decide
      | cons d a =>
        simp only [List.cons_append, List.cons.injEq] at hs
        obtain ⟨rfl, _⟩ := hs
        have := hh d rfl
        simpa only [List.mem_cons, List.not_mem_nil, or_false] using this
    rw [if_neg hc, pathArgLoop_after ht a (extra.length + 1) (i + 1) ha h.cons (by simp at hla; omega)]
    rfl

/-- The loop at a colon with a bracket or quote behind it. -/
theorem loop_json {extra : Bytes} {n i : Nat} {e w : Bool} {s : Bytes} (hh : ∀ c ∈ s.head?, c ∈ b!"{[\"") (hne : s ≠ []) (h : At extra i (c! ':' :: s)) (hl : 0 < n) :
    ∃ j, At extra j (leafTok s).2 ∧ pathNextLoop extra true n i e w =
      match (leafTok s).2 with
      | [] => .ok (extra.length, 0, e, w, i)
      | d :: _ => if d = c! '|' ∨ d = c! '.' then .ok (j + 1, d, e, w, i) else .ok (j, 0, e, w, i) := by
  obtain ⟨n, rfl⟩ : ∃ m, n = m + 1 := ⟨n - 1, by omega⟩
  obtain ⟨c, r, rfl⟩ := List.exists_cons_of_ne_nil hne
  have hc := hh c rfl
  obtain ⟨j, h1, h2⟩ := procLeaf_at h.cons
  refine ⟨j, h2, ?_⟩
  simp only [List.mem_cons, List.not_mem_nil, or_false] at hc
  rw [pathNextLoop.eq_def]
  simp only
  rw [if_pos h.lt, h.idx]
  simp only [ok_bind]
  rw [if_neg (by decide), if_pos (by simp), if_neg h.cons.ne, h.cons.idx]
  simp only [ok_bind]
  rw [if_pos hc, h1]
  simp only [ok_bind]
  cases hs : (leafTok (c :: r)).2 with
  | nil =>
    rw [hs] at h2
    have := h2.nil
    rw [if_neg (by omega), this]
  | cons d q =>
    rw [hs] at h2
    rw [if_pos h2.lt, h2.idx]
    rfl

theorem leafTok_behind {g r : Bytes} (hg : Bracketed g ∨ InQuotes g) (hh : ∀ c ∈ g.head?, c ∈ b!"{[\"") : (leafTok (g ++ r)).2 = r := by
  rcases hg with ⟨o, b, c, hob, hc, hb, rfl⟩ | ⟨b, hb, rfl⟩
  · have ho := hh o rfl
    simp only [List.mem_cons, List.not_mem_nil, or_false] at ho
    rw [List.cons_append, leafTok]
    have e : b ++ [c] ++ r = b ++ c :: r := by simp
    rw [e]
    by_cases hq : o = c! '"'
    · subst hq; simp at hob
    · rw [if_neg hq, if_pos (by grind), sq_group hb (closeTok_of hc)]
  · rw [List.cons_append, leafTok, if_pos rfl]
    obtain ⟨f, hf⟩ := qStr_quoted hb r
    have e : b ++ [c! '"'] ++ r = b ++ c! '"' :: r := by simp
    rw [e, hf]

theorem leafTok_open {o : UInt8} {s : Bytes} (ho : o ∈ b!"{[\"") (h : NeverClosed (o :: s)) : (leafTok (o :: s)).2 = [] := by
  simp only [List.mem_cons, List.not_mem_nil, or_false] at ho
  rw [leafTok]
  by_cases hq : o = c! '"'
  · subst hq; rw [if_pos rfl, qStr_never h]
  · rw [if_neg hq, if_pos (by grind),
      sq_never h (by rcases ho with rfl | rfl | rfl <;> first | exact absurd rfl hq | simp)]

/-! ### Queries and multipaths -/

theorem pathNext_key {s : Bytes} (h : ∀ c ∈ s.head?, c ∉ b!"@#{[") : pathNext s = pathNextPlain s false := by
  cases s with
  | nil => rfl
  | cons c r =>
    have := h c rfl
    simp only [List.mem_cons, List.not_mem_nil, or_false, not_or] at this
    unfold pathNext
    simp only
    rw [if_neg this.1, if_neg this.2.1, if_neg (by simp [this])]

theorem pathNext_query {c : UInt8} {r : Bytes} (h : c ∉ b!".|") : pathNext (c! '#' :: c :: r) = pathNextQuery (c! '#' :: c :: r) := by
  simp only [List.mem_cons, List.not_mem_nil, or_false] at h
  unfold pathNext
  simp only
  rw [if_neg (by decide), if_pos trivial, if_neg (by simp), (At.zero (c! '#' :: c :: r)).cons.idx]
  simp only [ok_bind]
  rw [if_neg h]

theorem queryEnd {x comp t rest : Bytes} {sep : UInt8} (ht : AfterComp t sep rest) :
    (comp = x ++ b!")" ∨ comp = x ++ b!")#" → pathNextQueryEnd (comp ++ t) comp.length sep = .ok ⟨comp, false, false, sep, 0, rest⟩) ∧
    (∀ c, c ∉ b!")#" → comp = x ++ [c] → pathNextQueryEnd (comp ++ t) comp.length sep = .ok Path.empty) ∧
    (∀ c, c ≠ c! ')' → comp = x ++ [c, c! '#'] → pathNextQueryEnd (comp ++ t) comp.length sep = .ok Path.empty) := by
  have hA : At (comp ++ t) 0 (comp ++ t) := At.zero _
  have h1 : sliceFrom (comp ++ t) (if sep = 0 then comp.length else comp.length + 1) = .ok rest := by
    rcases afterComp_sep ht with ⟨rfl, rfl, rfl⟩ | ⟨rfl, _, h0⟩
    · rw [if_pos rfl]; exact (hA.append' (j := comp.length) (by omega)).sliceFrom
    · rw [if_neg h0]; exact (hA.append' (j := comp.length) (by omega)).cons.sliceFrom
  have h2 : slice (comp ++ t) 0 comp.length = .ok comp := hA.slice' (by omega)
  have last : ∀ {y z : Bytes} {c : UInt8}, comp = y ++ c :: z → idx comp (comp.length - (z.length + 1)) = .ok c := by
    rintro y z c rfl
    have : At (y ++ c :: z) y.length (c :: z) := (At.zero (y ++ c :: z)).append' (by omega)
    rw [show (y ++ c :: z).length - (z.length + 1) = y.length by simp]
    exact this.idx
  unfold pathNextQueryEnd
  rw [h1, h2]
  simp only [ok_bind]
  refine ⟨?_, ?_, ?_⟩
  · rintro (h | h)
    · rw [if_neg (by rw [h]; simp), show comp.length - 1 = comp.length - (([] : Bytes).length + 1) by simp, last h]
      simp only [ok_bind]
      rw [if_neg (by decide), if_neg (by decide)]
    · have h' : comp = (x ++ b!")") ++ c! '#' :: [] := by rw [h]; simp
      rw [if_neg (by rw [h]; simp), show comp.length - 1 = comp.length - (([] : Bytes).length + 1) by simp, last h']
      simp only [ok_bind]
      rw [if_pos trivial, if_neg (by rw [h]; simp), show comp.length - 2 = comp.length - (b!"#".length + 1) by simp, last h]
      simp only [ok_bind]
      rw [if_neg (by decide)]
  · intro c hc h
    simp only [List.mem_cons, List.not_mem_nil, or_false, not_or] at hc
    rw [if_neg (by rw [h]; simp), show comp.length - 1 = comp.length - (([] : Bytes).length + 1) by simp, last h]
    simp only [ok_bind]
    rw [if_neg hc.2, if_pos hc.1]
  · intro c hc h
    have h' : comp = (x ++ [c]) ++ c! '#' :: [] := by rw [h]; simp
    rw [if_neg (by rw [h]; simp), show comp.length - 1 = comp.length - (([] : Bytes).length + 1) by simp, last h']
    simp only [ok_bind]
    rw [if_pos trivial, if_neg (by rw [h]; simp), show comp.length - 2 = comp.length - (b!"#".length + 1) by simp, last h]
    simp only [ok_bind]
    rw [if_pos hc]

/-- `path_next_query` behind a bracket that is closed. -/
theorem pathNextQuery_closed {b r : Bytes} {c : UInt8} (hb : Balanced b) (hc : c ∈ b!")]}") :
    pathNextQuery (b!"#(" ++ b ++ c :: r) =
      match r with
      | [] => pathNextQueryEnd (b!"#(" ++ b ++ [c] ++ r) (b!"#(" ++ b ++ [c]).length 0
      | d :: r' =>
        if d = c! '#' then
          match r' with
          | [] => pathNextQueryEnd (b!"#(" ++ b ++ [c] ++ r) (b!"#(" ++ b ++ [c] ++ b!"#").length 0
          | f :: _ => if f = c! '.' ∨ f = c! '|' then pathNextQueryEnd (b!"#(" ++ b ++ [c] ++ r) (b!"#(" ++ b ++ [c] ++ b!"#").length f else .ok Path.empty
        else if d = c! '.' ∨ d = c! '|' then pathNextQueryEnd (b!"#(" ++ b ++ [c] ++ r) (b!"#(" ++ b ++ [c]).length d else .ok Path.empty := by
  have e : b!"#(" ++ b ++ [c] ++ r = c! '#' :: c! '(' :: (b ++ c :: r) := by simp
  rw [e, show b!"#(" ++ b ++ c :: r = c! '#' :: c! '(' :: (b ++ c :: r) by simp]
  have h := (At.zero (c! '#' :: c! '(' :: (b ++ c :: r))).cons
  obtain ⟨h1, h2⟩ := scanSquash_group h hb (closeTok_of hc)
  unfold pathNextQuery
  rw [h.idx]
  simp only [ok_bind]
  rw [if_neg (by decide), show (0 + 1 : Nat) = 1 from rfl] at *
  rw [h1]
  simp only [ok_bind]
  have el : 1 + (c! '(' :: (b ++ [c])).length = (b!"#(" ++ b ++ [c]).length := by simp; omega
  have el2 : (b!"#(" ++ b ++ [c] ++ b!"#").length = (b!"#(" ++ b ++ [c]).length + 1 := by simp
  rw [el] at h2
  rw [el, el2]
  cases r with
  | nil => rw [if_neg (by have := h2.nil; omega)]
  | cons d r =>
    rw [if_pos h2.lt, h2.idx]
    simp only [ok_bind]
    split
    · cases r with
      | nil => rw [if_neg (by have := h2.cons.nil; omega)]
      | cons f r =>
        rw [if_pos h2.cons.lt, h2.cons.idx]
        rfl
    · rfl

theorem pathNextQuery_open {s : Bytes} (hs : sq 1 false s = none) :
    pathNextQuery (c! '#' :: c! '(' :: s) = pathNextQueryEnd (c! '#' :: c! '(' :: s) (c! '#' :: c! '(' :: s).length 0 := by
  have h := (At.zero (c! '#' :: c! '(' :: s)).cons
  have h1 := scanSquash_at h
  rw [hs] at h1
  simp only at h1
  unfold pathNextQuery
  rw [h.idx]
  simp only [ok_bind]
  rw [if_neg (by decide), show (1 : Nat) = 0 + 1 from rfl, h1]
  simp only [ok_bind]
  rw [if_neg (by omega)]

theorem pathNext_multi {o : UInt8} {s : Bytes} (ho : o ∈ b!"[{") : pathNext (o :: s) = pathNextMultipath (o :: s) := by
  simp only [List.mem_cons, List.not_mem_nil, or_false] at ho
  unfold pathNext
  simp only
  rw [if_neg (by rcases ho with rfl | rfl <;> decide), if_neg (by rcases ho with rfl | rfl <;> decide), if_pos (by rcases ho with h | h <;> simp [h])]

theorem multi_closed {g r : Bytes} (hg : Bracketed g) :
    pathNextMultipath (g ++ r) =
      match r with
      | [] => .ok ⟨g, false, false, 0, 0, []⟩
      | d :: r' => if d ≠ c! '.' ∧ d ≠ c! '|' then .ok ⟨g, false, false, 0, 0, []⟩ else .ok ⟨g, false, false, d, 0, r'⟩ := by
  obtain ⟨o, b, c, _, hc, hb, rfl⟩ := hg
  have e : o :: (b ++ [c]) ++ r = o :: (b ++ c :: r) := by simp
  have h : At (o :: (b ++ [c]) ++ r) 0 (o :: (b ++ c :: r)) := by rw [e]; exact At.zero _
  obtain ⟨h1, h2⟩ := scanSquash_group h hb (closeTok_of hc)
  rw [Nat.zero_add] at h1 h2
  have hg : slice (o :: (b ++ [c]) ++ r) 0 (o :: (b ++ [c])).length = .ok (o :: (b ++ [c])) := (At.zero _).slice' (by omega)
  have hend : sliceFrom (o :: (b ++ [c]) ++ r) (o :: (b ++ [c]) ++ r).length = .ok [] := (At.end _).sliceFrom
  unfold pathNextMultipath
  rw [h1]
  simp only [ok_bind, hg, hend]
  cases r with
  | nil => rw [if_pos h2.nil]
  | cons d r =>
    rw [if_neg h2.ne, h2.idx]
    simp only [ok_bind, h2.cons.sliceFrom]

theorem multi_open {o : UInt8} {s : Bytes} (hs : sq 1 false s = none) : pathNextMultipath (o :: s) = .ok ⟨o :: s, false, false, 0, 0, []⟩ := by
  have h1 := scanSquash_at (At.zero (o :: s))
  rw [hs] at h1
  simp only at h1
  have hg : slice (o :: s) 0 (o :: s).length = .ok (o :: s) := by
    have h : At (o :: s) 0 (o :: s ++ []) := by rw [List.append_nil]; exact At.zero _
    exact h.slice' (by omega)
  unfold pathNextMultipath
  rw [h1]
  simp only [ok_bind]
  rw [if_pos trivial, hg, (At.end (o :: s)).sliceFrom]
  rfl

/-! ### Every path -/

/-- The parts as `path_next` returns them. -/
def Spec.Parts.path (q : Parts) : Path := ⟨q.comp, q.esc, q.wild, q.sep, q.arg, q.rest⟩

theorem mem_two {c a b : UInt8} : c ∈ [a, b] ↔ c = a ∨ c = b := by simp

theorem argument_end {k t : Bytes} {e w : Bool} {sep : UInt8} {rest a : Bytes} (hk : CompOf b!".|:" (c! '@' :: k) e w) (ht : AfterComp t sep rest)
    (h : ∀ n, 0 < n → pathNextLoop (c! '@' :: (k ++ c! ':' :: (a ++ t))) true n (k.length + 1) e w =
      .ok ((c! '@' :: (k ++ c! ':' :: a)).length + (if sep = 0 then 0 else 1), sep, e, w, k.length + 1)) :
    pathNext (c! '@' :: (k ++ c! ':' :: (a ++ t))) = .ok ⟨c! '@' :: (k ++ c! ':' :: a), e, w, sep, k.length + 1, rest⟩ := by
  have e1 : c! '@' :: (k ++ c! ':' :: (a ++ t)) = (c! '@' :: (k ++ c! ':' :: a)) ++ t := by simp
  have e2 : c! '@' :: (k ++ c! ':' :: (a ++ t)) = (c! '@' :: k) ++ c! ':' :: (a ++ t) := by simp
  have hp : pathNext (c! '@' :: (k ++ c! ':' :: (a ++ t))) = pathNextPlain (c! '@' :: (k ++ c! ':' :: (a ++ t))) true := rfl
  rw [hp, e1]
  obtain ⟨m, h1, h2⟩ := compOf_loop (extra := c! '@' :: (k ++ c! ':' :: (a ++ t))) (modi := true) (t := c! ':' :: (a ++ t)) hk
    ((c! '@' :: (k ++ c! ':' :: (a ++ t))).length + 1) 0 false false (by rw [e2]; exact At.zero _) (by simp; omega)
  refine plain_end ht ?_
  rw [← e1, h2, Bool.false_or, Bool.false_or, show 0 + (c! '@' :: k).length = k.length + 1 by simp, h m (by omega)]

theorem cutUp_eval {path : Bytes} {q : Parts} (h : CutUp path q) : pathNext path = .ok q.path := by
  cases h with
  | @key k t rest e w sep hk hh ht =>
    rw [pathNext_key, plain_comp (modi := false) hk ht]; · rfl
    cases k with
    | cons c k => exact hh
    | nil =>
      intro c hc
      rcases afterComp_sep ht with ⟨rfl, _, _⟩ | ⟨rfl, h1, _⟩
      · cases hc
      · cases hc; rcases h1 with rfl | rfl <;> decide
  | @keyBackslash k e w hk hh =>
    rw [pathNext_key, plain_backslash (modi := false) hk]; · rfl
    cases k with
    | cons c k => exact hh
    | nil => intro c hc; cases hc; decide
  | @count t rest sep ht =>
    have := plain_comp (modi := false) (k := b!"#") (e := false) (w := false) (.plain (by decide) (by decide) .nil) ht
    rw [show c! '#' :: t = b!"#" ++ t from rfl]
    refine Eq.trans ?_ this
    rcases afterComp_sep ht with ⟨rfl, _, _⟩ | ⟨rfl, h1, _⟩
    · rfl
    · show pathNext (c! '#' :: sep :: rest) = pathNextPlain (c! '#' :: sep :: rest) false
      unfold pathNext
      simp only
      rw [if_neg (by decide), if_pos trivial, if_neg (by simp), (At.zero (c! '#' :: sep :: rest)).cons.idx]
      simp only [ok_bind]
      rw [if_pos h1]
  | @query b h t rest sep hb hh ht =>
    have e : b!"#(" ++ b ++ b!")" ++ h ++ t = b!"#(" ++ b ++ c! ')' :: (h ++ t) := by simp
    have q1 := (queryEnd (x := b!"#(" ++ b) (comp := b!"#(" ++ b ++ b!")" ++ h) ht).1 (by rcases hh with rfl | rfl <;> simp)
    have q2 : pathNext (b!"#(" ++ b ++ b!")" ++ h ++ t) = pathNextQuery (b!"#(" ++ b ++ c! ')' :: (h ++ t)) := by
      rw [e]; exact pathNext_query (by decide)
    rw [q2, pathNextQuery_closed hb (by decide)]
    have e2 : b!"#(" ++ b ++ b!")" ++ (h ++ t) = b!"#(" ++ b ++ b!")" ++ h ++ t := by simp
    rw [e2]
    rcases hh with rfl | rfl
    · rw [List.nil_append, List.append_nil] at *
      rcases afterComp_sep ht with ⟨rfl, rfl, rfl⟩ | ⟨rfl, h1, _⟩
      · exact q1
      · simp only
        rw [if_neg (by rcases h1 with rfl | rfl <;> decide), if_pos h1]; exact q1
    · rcases afterComp_sep ht with ⟨rfl, rfl, rfl⟩ | ⟨rfl, h1, _⟩
      · exact q1
      · simp only [List.cons_append, List.nil_append, if_true] at q1 ⊢
        rw [if_pos h1]; exact q1
  | @queryOpen s h ho hh =>
    have hs : sq 1 false (s ++ b!")" ++ h) = none := sq_never (o := c! '(') (by simpa using ho) (by decide)
    have e : b!"#(" ++ s ++ b!")" ++ h = c! '#' :: c! '(' :: (s ++ b!")" ++ h) := by simp
    have q1 := (queryEnd (x := b!"#(" ++ s) (comp := b!"#(" ++ s ++ b!")" ++ h) .nothing).1 (by rcases hh with rfl | rfl <;> simp)
    rw [List.append_nil] at q1
    have q2 : pathNext (b!"#(" ++ s ++ b!")" ++ h) = pathNextQuery (c! '#' :: c! '(' :: (s ++ b!")" ++ h)) := by
      rw [e]; exact pathNext_query (by decide)
    rw [q2, pathNextQuery_open hs, ← e]
    exact q1
  | @badHash c r hc =>
    simp only [List.mem_cons, List.not_mem_nil, or_false, not_or] at hc
    rw [pathNext_query (by simp [hc])]
    unfold pathNextQuery
    rw [(At.zero (c! '#' :: c :: r)).cons.idx]
    simp only [ok_bind]
    rw [if_pos hc.2.2]; rfl
  | @badClose b r c hb hc =>
    have hc' : c ∈ b!")]}" := by simp only [List.mem_cons, List.not_mem_nil, or_false] at hc ⊢; exact .inr hc
    have hc2 : c ∉ b!")#" := by simp only [List.mem_cons, List.not_mem_nil, or_false] at hc; rcases hc with rfl | rfl <;> decide
    have hc3 : c ≠ c! ')' := by simp only [List.mem_cons, List.not_mem_nil, or_false] at hc; rcases hc with rfl | rfl <;> decide
    have q2 : pathNext (b!"#(" ++ b ++ c :: r) = pathNextQuery (b!"#(" ++ b ++ c :: r) := pathNext_query (by decide)
    rw [q2, pathNextQuery_closed hb hc']
    cases r with
    | nil => exact (queryEnd (x := b!"#(" ++ b) .nothing).2.1 c hc2 rfl
    | cons d r =>
      simp only
      split
      · rename_i hd
        subst hd
        cases r with
        | nil =>
          have := (queryEnd (x := b!"#(" ++ b) (comp := b!"#(" ++ b ++ [c] ++ b!"#") .nothing).2.2 c hc3 (by simp)
          rw [List.append_nil] at this
          exact this
        | cons f r =>
          simp only
          split
          · rename_i hf
            have := (queryEnd (x := b!"#(" ++ b) (comp := b!"#(" ++ b ++ [c] ++ b!"#") (.sep (r := r) (mem_two.2 hf))).2.2 c hc3 (by simp)
            rw [List.append_assoc] at this
            exact this
          · rfl
      · split
        · rename_i hd
          exact (queryEnd (x := b!"#(" ++ b) (.sep (mem_two.2 hd))).2.1 c hc2 rfl
        · rfl
  | @badAfter b h r d hb hh =>
    have e : b!"#(" ++ b ++ b!")" ++ h ++ d :: r = b!"#(" ++ b ++ c! ')' :: (h ++ d :: r) := by simp
    have q2 : pathNext (b!"#(" ++ b ++ b!")" ++ h ++ d :: r) = pathNextQuery (b!"#(" ++ b ++ c! ')' :: (h ++ d :: r)) := by
      rw [e]; exact pathNext_query (by decide)
    rw [q2, pathNextQuery_closed hb (by decide)]
    rcases hh with ⟨rfl, hd⟩ | ⟨rfl, hd⟩
    · simp only [List.mem_cons, List.not_mem_nil, or_false, not_or] at hd
      simp only [List.nil_append]
      rw [if_neg hd.2.2, if_neg (by simp [hd])]; rfl
    · simp only [List.mem_cons, List.not_mem_nil, or_false] at hd
      simp only [List.cons_append, List.nil_append, if_true]
      rw [if_neg hd]; rfl
  | @badOpen s ho hs =>
    rw [pathNext_query (by decide), pathNextQuery_open (sq_never ho (by decide))]
    have last : ∀ (l : Bytes), l ≠ [] → ∃ x c, l = x ++ [c] := fun l hl => ⟨l.dropLast, l.getLast hl, (List.dropLast_concat_getLast hl).symm⟩
    have fin : ∀ {x comp : Bytes}, comp = c! '#' :: c! '(' :: s →
        ((∃ c, c ∉ b!")#" ∧ comp = x ++ [c]) ∨ (∃ c, c ≠ c! ')' ∧ comp = x ++ [c, c! '#'])) →
        pathNextQueryEnd (c! '#' :: c! '(' :: s) (c! '#' :: c! '(' :: s).length 0 = .ok Path.empty := by
      rintro x comp hcomp hx
      have := (queryEnd (x := x) (comp := comp) .nothing).2
      rw [List.append_nil, hcomp] at this
      rcases hx with ⟨c, h1, h2⟩ | ⟨c, h1, h2⟩
      · exact this.1 c h1 (hcomp ▸ h2)
      · exact this.2 c h1 (hcomp ▸ h2)
    cases s with
    | nil => exact fin (x := b!"#") rfl (.inl ⟨c! '(', by decide, rfl⟩)
    | cons s0 sr =>
      obtain ⟨x, c, hx⟩ := last (s0 :: sr) (by simp)
      rw [hx] at hs fin ⊢
      by_cases h1 : c = c! ')'
      · subst h1; exact absurd rfl (hs x).1
      by_cases h2 : c = c! '#'
      · subst h2
        cases x with
        | nil => exact fin (x := b!"#") rfl (.inr ⟨c! '(', by decide, rfl⟩)
        | cons x0 xr =>
          obtain ⟨y, d, hy⟩ := last (x0 :: xr) (by simp)
          rw [hy] at hs fin ⊢
          have hd : d ≠ c! ')' := by rintro rfl; exact (hs y).2 (by simp)
          exact fin (x := b!"#(" ++ y) rfl (.inr ⟨d, hd, by simp⟩)
      · exact fin (x := b!"#(" ++ x) rfl (.inl ⟨c, by simp [h1, h2], by simp⟩)
  | @multi g t rest sep hg hh ht =>
    have := multi_closed (r := t) hg
    obtain ⟨o, b, c, ho, hc, hb, rfl⟩ := hg
    have hp : pathNext (o :: (b ++ [c]) ++ t) = pathNextMultipath (o :: (b ++ [c]) ++ t) := pathNext_multi (hh o rfl)
    rw [hp, this]
    rcases afterComp_sep ht with ⟨rfl, rfl, rfl⟩ | ⟨rfl, h1, _⟩
    · rfl
    · simp only
      rw [if_neg (by rcases h1 with rfl | rfl <;> decide)]; rfl
  | @multiMore g r d hg hh hd =>
    have := multi_closed (r := d :: r) hg
    obtain ⟨o, b, c, ho, hc, hb, rfl⟩ := hg
    have hp : pathNext (o :: (b ++ [c]) ++ d :: r) = pathNextMultipath (o :: (b ++ [c]) ++ d :: r) := pathNext_multi (hh o rfl)
    simp only [List.mem_cons, List.not_mem_nil, or_false, not_or] at hd
    rw [hp, this]
    simp only
    rw [if_pos hd]; rfl
  | @multiOpen s o ho hs =>
    rw [pathNext_multi ho, multi_open (sq_never hs (by simp only [List.mem_cons, List.not_mem_nil, or_false] at ho; rcases ho with rfl | rfl <;> decide))]
    rfl
  | @modifier k t rest e w sep hk ht => exact plain_comp (modi := true) hk ht
  | @modifierBackslash k e w hk => exact plain_backslash (modi := true) hk
  | @argument k a t rest e w sep hk ha hh ht =>
    refine argument_end hk ht fun n hn => ?_
    have e2 : c! '@' :: (k ++ c! ':' :: (a ++ t)) = (c! '@' :: k) ++ c! ':' :: (a ++ t) := by simp
    rw [loop_argument ht ha hh (by rw [e2]; exact (At.zero _).append' (by simp)) hn]
    congr 2
    simp
    omega
  | @argumentJson k g t rest e w sep hk hg hh ht =>
    refine argument_end hk ht fun n hn => ?_
    have e2 : c! '@' :: (k ++ c! ':' :: (g ++ t)) = (c! '@' :: k) ++ c! ':' :: (g ++ t) := by simp
    have hA : At (c! '@' :: (k ++ c! ':' :: (g ++ t))) (k.length + 1) (c! ':' :: (g ++ t)) := by rw [e2]; exact (At.zero _).append' (by simp)
    have hl := leafTok_behind (r := t) hg hh
    have hlen := hA.cons.append.len
    have hlen0 := hA.len
    have hne : g ++ t ≠ [] := by rcases hg with ⟨_, _, _, _, _, _, rfl⟩ | ⟨_, _, rfl⟩ <;> simp
    have hh' : ∀ c ∈ (g ++ t).head?, c ∈ b!"{[\"" := by rcases hg with ⟨_, _, _, _, _, _, rfl⟩ | ⟨_, _, rfl⟩ <;> exact hh
    obtain ⟨j, h1, h2⟩ := loop_json (e := e) (w := w) hh' hne hA hn
    rw [h2]
    rw [hl] at h1 ⊢
    have hj := h1.len
    rcases afterComp_sep ht with ⟨rfl, rfl, rfl⟩ | ⟨rfl, hs, h0⟩
    · simp
    · simp only
      rw [if_pos (hs.symm), if_neg h0]
      congr 2
      simp at hj hlen0 ⊢
      omega
  | @argumentMore k g r e w d hk hg hh hd =>
    have e2 : c! '@' :: (k ++ c! ':' :: (g ++ d :: r)) = (c! '@' :: k) ++ c! ':' :: (g ++ d :: r) := by simp
    have hA : At (c! '@' :: (k ++ c! ':' :: (g ++ d :: r))) (k.length + 1) (c! ':' :: (g ++ d :: r)) := by rw [e2]; exact (At.zero _).append' (by simp)
    have hl := leafTok_behind (r := d :: r) hg hh
    have hh' : ∀ c ∈ (g ++ d :: r).head?, c ∈ b!"{[\"" := by rcases hg with ⟨_, _, _, _, _, _, rfl⟩ | ⟨_, _, rfl⟩ <;> exact hh
    simp only [List.mem_cons, List.not_mem_nil, or_false] at hd
    obtain ⟨m, h1, h2⟩ := compOf_loop (extra := c! '@' :: (k ++ c! ':' :: (g ++ d :: r))) (modi := true) (t := c! ':' :: (g ++ d :: r)) hk
      ((c! '@' :: (k ++ c! ':' :: (g ++ d :: r))).length + 1) 0 false false (by rw [e2]; exact At.zero _) (by simp; omega)
    obtain ⟨j, h3, h4⟩ := loop_json (n := m) (e := e) (w := w) hh' (by simp) hA (by omega)
    rw [hl] at h3 h4
    simp only at h4
    rw [if_neg (fun h => hd h.symm)] at h4
    have hp : pathNext (c! '@' :: (k ++ c! ':' :: (g ++ d :: r))) = pathNextPlain (c! '@' :: (k ++ c! ':' :: (g ++ d :: r))) true := rfl
    rw [hp]
    unfold pathNextPlain
    rw [h2, Bool.false_or, Bool.false_or, show 0 + (c! '@' :: k).length = k.length + 1 by simp, h4]
    simp only [ok_bind]
    rw [if_pos trivial, h3.sliceFrom]
    rfl
  | @argumentOpen k s e w o hk ho hs =>
    have := argument_end (a := o :: s) (t := []) hk .nothing fun n hn => ?_
    · rw [List.append_nil] at this; exact this
    rw [List.append_nil]
    have e2 : c! '@' :: (k ++ c! ':' :: o :: s) = (c! '@' :: k) ++ c! ':' :: o :: s := by simp
    have hA : At (c! '@' :: (k ++ c! ':' :: o :: s)) (k.length + 1) (c! ':' :: o :: s) := by rw [e2]; exact (At.zero _).append' (by simp)
    obtain ⟨j, h1, h2⟩ := loop_json (e := e) (w := w) (by intro c hc; cases hc; exact ho) (by simp) hA hn
    rw [h2, leafTok_open ho hs]
    simp

theorem compOf_split (stop : Bytes) : ∀ (n : Nat) (s : Bytes), s.length < n → ∃ k e w t, s = k ++ t ∧ CompOf stop k e w ∧
    (t = [] ∨ t = [c! '\\'] ∨ ∃ c r, t = c :: r ∧ c ∈ stop)
  | 0, _, h => by omega
  | _ + 1, [], _ => ⟨[], _, _, [], rfl, .nil, .inl rfl⟩
  | n + 1, c :: r, hl => by
    by_cases h1 : c = c! '\\'
    · subst h1
      cases r with
      | nil => exact ⟨[], _, _, _, rfl, .nil, .inr (.inl rfl)⟩
      | cons d r =>
        obtain ⟨k, e, w, t, rfl, h2, h3⟩ := compOf_split stop n r (by simp at hl; omega)
        exact ⟨_, _, _, t, rfl, .esc (c := d) h2, h3⟩
    by_cases h2 : c ∈ stop
    · exact ⟨[], _, _, _, rfl, .nil, .inr (.inr ⟨c, r, rfl, h2⟩)⟩
    obtain ⟨k, e, w, t, rfl, h3, h4⟩ := compOf_split stop n r (by simp at hl; omega)
    by_cases h5 : c ∈ b!"*?"
    · exact ⟨c :: k, _, _, t, rfl, .wild h5 h3, h4⟩
    · refine ⟨c :: k, _, _, t, rfl, .plain ?_ h2 h3, h4⟩
      simp only [List.mem_cons, List.not_mem_nil, or_false] at h5 ⊢
      simp [h1, h5]

theorem split_seps : ∀ (s : Bytes), ∃ a t sep rest, s = a ++ t ∧ (∀ c ∈ a, c ∉ b!".|") ∧ AfterComp t sep rest
  | [] => ⟨[], [], 0, [], rfl, by simp, .nothing⟩
  | c :: r => by
    by_cases h : c ∈ b!".|"
    · exact ⟨[], c :: r, c, r, rfl, by simp, .sep h⟩
    · obtain ⟨a, t, sep, rest, rfl, h1, h2⟩ := split_seps r
      exact ⟨c :: a, t, sep, rest, rfl, by intro d hd; rcases List.mem_cons.1 hd with rfl | hd; exact h; exact h1 d hd, h2⟩

theorem after_cases (r : Bytes) : (∃ sep rest, AfterComp r sep rest) ∨ ∃ d r', r = d :: r' ∧ d ∉ b!".|" := by
  cases r with
  | nil => exact .inl ⟨0, [], .nothing⟩
  | cons d r =>
    by_cases h : d ∈ b!".|"
    · exact .inl ⟨d, r, .sep h⟩
    · exact .inr ⟨d, r, rfl, h⟩

/-- There is a rule for every path. -/
theorem cutUp_total (path : Bytes) : ∃ q, CutUp path q := by
  cases path with
  | nil => exact ⟨_, .key (k := []) .nil (by simp) .nothing⟩
  | cons c s =>
    by_cases h1 : c = c! '@'
    · subst h1
      obtain ⟨k, e, w, t, rfl, hk, ht⟩ := compOf_split b!".|:" (s.length + 1) s (Nat.lt_succ_self _)
      have hk' : CompOf b!".|:" (c! '@' :: k) e w := .plain (by decide) (by decide) hk
      rcases ht with rfl | rfl | ⟨c, r, rfl, hc⟩
      · exact ⟨_, .modifier hk' .nothing⟩
      · exact ⟨_, .modifierBackslash hk'⟩
      · by_cases h2 : c ∈ b!".|"
        · exact ⟨_, .modifier hk' (.sep h2)⟩
        obtain rfl : c = c! ':' := by
          simp only [List.mem_cons, List.not_mem_nil, or_false, not_or] at hc h2
          simpa [h2] using hc
        by_cases h3 : ∀ c ∈ r.head?, c ∉ b!"{[\""
        · obtain ⟨a, t, sep, rest, rfl, ha, ht⟩ := split_seps r
          refine ⟨_, .argument hk' ha ?_ ht⟩
          cases a with
          | nil => simp
          | cons d a => exact h3
        · cases r with
          | nil => exact absurd (by simp) h3
          | cons o r =>
            have ho : o ∈ b!"{[\"" := Classical.byContradiction fun h => h3 (by intro c hc; cases hc; exact h)
            have close : ∀ {g r' : Bytes}, o :: r = g ++ r' → Bracketed g ∨ InQuotes g → ∃ q, CutUp (c! '@' :: (k ++ c! ':' :: o :: r)) q := by
              intro g r' e hg
              rw [e]
              have hh : ∀ c ∈ g.head?, c ∈ b!"{[\"" := by
                intro c hc
                cases g with
                | nil => cases hc
                | cons d g =>
                  cases hc
                  simp only [List.cons_append, List.cons.injEq] at e
                  exact e.1 ▸ ho
              rcases after_cases r' with ⟨sep, rest, ha⟩ | ⟨d, r'', rfl, hd⟩
              · exact ⟨_, .argumentJson hk' hg hh ha⟩
              · exact ⟨_, .argumentMore hk' hg hh hd⟩
            by_cases hq : o = c! '"'
            · subst hq
              rcases qStr_cases r with ⟨b, r', f, rfl, hb, _⟩ | ⟨_, hn⟩
              · exact close (g := c! '"' :: (b ++ [c! '"'])) (r' := r') (by simp) (.inr ⟨b, hb, rfl⟩)
              · exact ⟨_, .argumentOpen hk' ho hn⟩
            · have ho' : o ∈ b!"([{" := by simp only [List.mem_cons, List.not_mem_nil, or_false] at ho ⊢; grind
              rcases sq_cases r with ⟨b, c, r', rfl, hb, hc, _⟩ | ⟨_, hn⟩
              · exact close (g := o :: (b ++ [c])) (r' := r') (by simp) (.inl ⟨o, b, c, ho', hc, hb, rfl⟩)
              · exact ⟨_, .argumentOpen hk' ho (hn o ho')⟩
    by_cases h2 : c = c! '#'
    · subst h2
      cases s with
      | nil => exact ⟨_, .count .nothing⟩
      | cons d r =>
        by_cases hd : d ∈ b!".|"
        · exact ⟨_, .count (.sep hd)⟩
        by_cases hp : d = c! '('
        · subst hp
          rcases sq_cases r with ⟨b, c, r', rfl, hb, hc, _⟩ | ⟨_, hn⟩
          · by_cases hc2 : c = c! ')'
            · subst hc2
              have e : ∀ t, c! '#' :: c! '(' :: (b ++ c! ')' :: t) = b!"#(" ++ b ++ b!")" ++ t := by simp
              rw [e]
              rcases after_cases r' with ⟨sep, rest, ha⟩ | ⟨d, r'', rfl, hd⟩
              · exact ⟨_, by simpa using CutUp.query (h := []) hb (.inl rfl) ha⟩
              · by_cases hh : d = c! '#'
                · subst hh
                  have e2 : b!"#(" ++ b ++ b!")" ++ c! '#' :: r'' = b!"#(" ++ b ++ b!")" ++ b!"#" ++ r'' := by simp
                  rw [e2]
                  rcases after_cases r'' with ⟨sep, rest, ha⟩ | ⟨d, r3, rfl, hd⟩
                  · exact ⟨_, .query (h := b!"#") hb (.inr rfl) ha⟩
                  · exact ⟨_, .badAfter (h := b!"#") hb (.inr ⟨rfl, hd⟩)⟩
                · have := CutUp.badAfter (h := []) (r := r'') (d := d) hb (.inl ⟨rfl, by
                    simp only [List.mem_cons, List.not_mem_nil, or_false] at hd ⊢; grind⟩)
                  rw [List.append_nil] at this
                  exact ⟨_, this⟩
            · have hc3 : c ∈ b!"]}" := by simp only [List.mem_cons, List.not_mem_nil, or_false] at hc ⊢; simpa [hc2] using hc
              exact ⟨_, .badClose (r := r') hb hc3⟩
          · have hn := hn (c! '(') (by decide)
            by_cases hs : ∀ s', r ≠ s' ++ b!")" ∧ r ≠ s' ++ b!")#"
            · exact ⟨_, .badOpen hn hs⟩
            · obtain ⟨s', hs'⟩ := Classical.not_forall.1 hs
              by_cases h3 : r = s' ++ b!")"
              · subst h3
                have := CutUp.queryOpen (s := s') (h := []) (by simpa using hn) (.inl rfl)
                exact ⟨_, by simpa using this⟩
              · obtain rfl : r = s' ++ b!")#" := Classical.byContradiction fun h => hs' ⟨h3, h⟩
                have := CutUp.queryOpen (s := s') (h := b!"#") (by simpa using hn) (.inr rfl)
                exact ⟨_, by simpa using this⟩
        · refine ⟨_, .badHash (c := d) (r := r) ?_⟩
          simp only [List.mem_cons, List.not_mem_nil, or_false] at hd ⊢
          grind
    by_cases h3 : c ∈ b!"[{"
    · have ho : c ∈ b!"([{" := by simp only [List.mem_cons, List.not_mem_nil, or_false] at h3 ⊢; grind
      rcases sq_cases s with ⟨b, d, r, rfl, hb, hd, _⟩ | ⟨_, hn⟩
      · have e : c :: (b ++ d :: r) = (c :: (b ++ [d])) ++ r := by simp
        have hg : Bracketed (c :: (b ++ [d])) := ⟨c, b, d, ho, hd, hb, rfl⟩
        have hh : ∀ x ∈ (c :: (b ++ [d])).head?, x ∈ b!"[{" := by intro x hx; cases hx; exact h3
        rw [e]
        rcases after_cases r with ⟨sep, rest, ha⟩ | ⟨d, r'', rfl, hd⟩
        · exact ⟨_, .multi hg hh ha⟩
        · exact ⟨_, .multiMore hg hh hd⟩
      · exact ⟨_, .multiOpen h3 (hn c ho)⟩
    · have hf : c ∉ b!"@#{[" := by simp only [List.mem_cons, List.not_mem_nil, or_false] at h3 ⊢; grind
      obtain ⟨k, e, w, t, hs, hk, ht⟩ := compOf_split b!".|" (s.length + 2) (c :: s) (by simp)
      have hh : ∀ x ∈ k.head?, x ∉ b!"@#{[" := by
        intro x hx
        cases k with
        | nil => cases hx
        | cons y k => cases hx; simp only [List.cons_append, List.cons.injEq] at hs; exact hs.1 ▸ hf
      rw [hs]
      rcases ht with rfl | rfl | ⟨d, r, rfl, hd⟩
      · exact ⟨_, .key hk hh .nothing⟩
      · exact ⟨_, .keyBackslash hk hh⟩
      · exact ⟨_, .key hk hh (.sep hd)⟩

end Gjson
