import Verif.Lemmas.Valid
/-
The recursive-descent parser of `Verif.Lemmas.Valid` accepts exactly the grammar
of `Verif.Spec`.
-/
namespace Gjson
open Spec

/-- What may follow a value inside a JSON text. -/
def Follow (r : Bytes) : Prop := ∀ c ∈ r.head?, IsWs c ∨ c = c! ',' ∨ c = c! ']' ∨ c = c! '}'

/-- What may follow a number so that it is not continued. -/
def FollowNum (r : Bytes) : Prop :=
  ∀ c ∈ r.head?, ¬ IsDigit c ∧ c ≠ c! '.' ∧ c ≠ c! 'e' ∧ c ≠ c! 'E'

theorem Follow.num {r : Bytes} (h : Follow r) : FollowNum r := by
  intro c hc
  have := h c hc
  unfold IsWs at this
  unfold IsDigit
  grind

theorem Follow.nil : Follow [] := by simp [Follow]
theorem Follow.cons {c : UInt8} {r : Bytes} (h : IsWs c ∨ c = c! ',' ∨ c = c! ']' ∨ c = c! '}') :
    Follow (c :: r) := by simpa [Follow] using h
theorem Follow.comma {r : Bytes} : Follow (c! ',' :: r) := .cons (by simp)
theorem Follow.brack {r : Bytes} : Follow (c! ']' :: r) := .cons (by simp)
theorem Follow.brace {r : Bytes} : Follow (c! '}' :: r) := .cons (by simp)
theorem Follow.ws {w r : Bytes} (h : Ws w) (hr : Follow r) : Follow (w ++ r) := by
  cases w with
  | nil => exact hr
  | cons c w => exact .cons (.inl (h c (by simp)))
theorem Follow.ws' {w : Bytes} (h : Ws w) : Follow w := by
  simpa using Follow.ws h .nil

theorem Ws.nil : Ws [] := by simp [Ws]
theorem Ws.cons {c : UInt8} {w : Bytes} (h : IsWs c) (hw : Ws w) : Ws (c :: w) := by
  intro x hx; simp at hx; rcases hx with rfl | hx; exact h; exact hw x hx
theorem Ws.append {w v : Bytes} (h : Ws w) (hv : Ws v) : Ws (w ++ v) := by
  intro x hx; rw [List.mem_append] at hx; exact hx.elim (h x) (hv x)

theorem pWs_eq_nil {s : Bytes} : pWs s = [] ↔ Ws s := by
  constructor
  · intro h
    obtain ⟨w, h1, h2, _⟩ := pWs_spec s
    rw [h] at h2; simp at h2; rw [h2]; exact h1
  · intro h
    have := pWs_append (s := []) h
    simpa [pWs] using this

/-! ### Strings -/

theorem pStr_sound : ∀ {s r : Bytes}, pStr s = some r → ∃ b, StrBody b ∧ s = b ++ c! '"' :: r := by
  intro s
  fun_induction pStr s with
  | case1 => simp
  | case2 => simp
  | case3 r h1 => intro q hq; simp at hq; subst hq; exact ⟨[], .nil, by simp⟩
  | case4 => simp
  | case5 e r' h4 h1 h2 ih =>
    intro q hq
    obtain ⟨b, hb, hs⟩ := ih hq
    exact ⟨_, .esc h4 hb, by simp [hs]⟩
  | case6 a1 a2 a3 a4 r'' h6 h1 h2 h4 ih =>
    intro q hq
    obtain ⟨b, hb, hs⟩ := ih hq
    exact ⟨_, .uni h6.1 h6.2.1 h6.2.2.1 h6.2.2.2 hb, by simp [hs]⟩
  | case7 => simp
  | case8 => simp
  | case9 => simp
  | case10 c r h1 h2 h3 ih =>
    intro q hq
    obtain ⟨b, hb, hs⟩ := ih hq
    exact ⟨_, .plain (by grind) h2 h3 hb, by simp [hs]⟩

theorem pStr_complete {b r : Bytes} (h : StrBody b) : pStr (b ++ c! '"' :: r) = some r := by
  induction h with
  | nil => rw [List.nil_append, pStr.eq_def]; simp
  | plain h1 h2 h3 _ ih =>
    rw [List.cons_append, pStr.eq_def]
    simp only
    rw [if_neg (by grind), if_neg h2, if_neg h3, ih]
  | esc h1 _ ih =>
    rw [List.cons_append, List.cons_append, pStr.eq_def]
    simp only
    rw [if_neg (by decide), if_neg (by decide), if_pos trivial, if_pos h1, ih]
  | uni h1 h2 h3 h4 _ ih =>
    simp only [List.cons_append]
    rw [pStr.eq_def]
    simp only
    rw [if_neg (by decide), if_neg (by decide), if_pos trivial, if_neg (by decide), if_pos trivial,
      if_pos ⟨h1, h2, h3, h4⟩, ih]

/-! ### Numbers -/

theorem pDigits_spec (s : Bytes) : ∃ ds, (∀ c ∈ ds, IsDigit c) ∧ s = ds ++ pDigits s := by
  refine ⟨s.takeWhile (fun c => decide (IsDigit c)), ?_, ?_⟩
  · intro c hc
    have := List.all_takeWhile (p := fun c => decide (IsDigit c)) (l := s)
    simpa using List.all_eq_true.1 this c hc
  · simp [pDigits]

theorem pDigits_append {ds r : Bytes} (h : ∀ c ∈ ds, IsDigit c) : pDigits (ds ++ r) = pDigits r := by
  induction ds with
  | nil => rfl
  | cons c ds ih =>
    have := h c (by simp)
    rw [List.cons_append]
    unfold pDigits
    rw [List.dropWhile_cons, if_pos (by simpa using this)]
    exact ih (fun x hx => h x (by simp [hx]))

theorem pDigits_stop {r : Bytes} (h : ∀ c ∈ r.head?, ¬ IsDigit c) : pDigits r = r := by
  cases r with
  | nil => rfl
  | cons c r => simp at h; simp [pDigits, h]

theorem pDigits1_sound {s r : Bytes} (h : pDigits1 s = some r) :
    ∃ ds, ds ≠ [] ∧ (∀ c ∈ ds, IsDigit c) ∧ s = ds ++ r := by
  cases s with
  | nil => simp [pDigits1] at h
  | cons x q =>
    simp only [pDigits1] at h
    split at h
    · rename_i hx
      simp at h
      obtain ⟨ds, h1, h2⟩ := pDigits_spec q
      refine ⟨x :: ds, by simp, ?_, ?_⟩
      · intro c hc; simp at hc; rcases hc with rfl | hc; exact hx; exact h1 c hc
      · rw [← h]; simpa using h2
    · simp at h

theorem pDigits1_complete {ds r : Bytes} (h0 : ds ≠ []) (h : ∀ c ∈ ds, IsDigit c)
    (hr : ∀ c ∈ r.head?, ¬ IsDigit c) : pDigits1 (ds ++ r) = some r := by
  cases ds with
  | nil => exact absurd rfl h0
  | cons c ds =>
    simp only [List.cons_append, pDigits1]
    rw [if_pos (h c (by simp)), pDigits_append (fun x hx => h x (by simp [hx])), pDigits_stop hr]

theorem pExp_sound {s r : Bytes} (h : pExp s = some r) : ∃ t, ExpPart t ∧ s = t ++ r := by
  cases s with
  | nil => simp [pExp] at h; exact ⟨[], .inl rfl, by simp [h]⟩
  | cons c q =>
    simp only [pExp] at h
    split at h
    · rename_i hc
      cases q with
      | nil => simp at h
      | cons d q =>
        simp only at h
        split at h
        · rename_i hd
          obtain ⟨ds, h1, h2, h3⟩ := pDigits1_sound h
          exact ⟨c :: ([d] ++ ds), .inr ⟨c, [d], ds, rfl, hc, by grind, h1, h2⟩, by simp [h3]⟩
        · obtain ⟨ds, h1, h2, h3⟩ := pDigits1_sound h
          exact ⟨c :: ([] ++ ds), .inr ⟨c, [], ds, rfl, hc, .inl rfl, h1, h2⟩, by simp [h3]⟩
    · simp at h; exact ⟨[], .inl rfl, by simp [h]⟩

theorem pExp_complete {t r : Bytes} (h : ExpPart t) (hr : FollowNum r) : pExp (t ++ r) = some r := by
  rcases h with rfl | ⟨e, sg, ds, rfl, he, hs, h0, hd⟩
  · cases r with
    | nil => rfl
    | cons c r =>
      have := hr c (by simp)
      simp only [List.nil_append, pExp]
      rw [if_neg (by grind)]
  · simp only [List.cons_append, pExp]
    rw [if_pos he]
    have hr' : ∀ c ∈ r.head?, ¬ IsDigit c := fun c hc => (hr c hc).1
    rcases hs with rfl | rfl | rfl
    · cases ds with
      | nil => exact absurd rfl h0
      | cons d ds =>
        have := hd d (by simp)
        simp only [List.nil_append, List.cons_append]
        rw [if_neg (by unfold IsDigit at this; grind)]
        exact pDigits1_complete h0 hd hr'
    · simp only [List.cons_append, List.nil_append]
      exact pDigits1_complete h0 hd hr'
    · simp only [List.cons_append, List.nil_append]
      exact pDigits1_complete h0 hd hr'

theorem pFrac_sound {s r : Bytes} (h : pFrac s = some r) :
    ∃ t u, FracPart t ∧ ExpPart u ∧ s = t ++ (u ++ r) := by
  cases s with
  | nil => simp [pFrac] at h; exact ⟨[], [], .inl rfl, .inl rfl, by simp [h]⟩
  | cons c q =>
    simp only [pFrac] at h
    split at h
    · rename_i hc
      cases hq : pDigits1 q with
      | none => rw [hq] at h; simp at h
      | some q2 =>
        rw [hq] at h
        obtain ⟨ds, h1, h2, h3⟩ := pDigits1_sound hq
        obtain ⟨u, hu, hu2⟩ := pExp_sound h
        exact ⟨c :: ds, u, .inr ⟨ds, by rw [hc], h1, h2⟩, hu, by simp [h3, hu2]⟩
    · obtain ⟨u, hu, hu2⟩ := pExp_sound h
      exact ⟨[], u, .inl rfl, hu, hu2⟩

theorem ExpPart.head_digit {u r : Bytes} (h : ExpPart u) (hr : FollowNum r) :
    ∀ c ∈ (u ++ r).head?, ¬ IsDigit c ∧ c ≠ c! '.' := by
  rcases h with rfl | ⟨e, sg, ds, rfl, he, _⟩
  · intro c hc; exact ⟨(hr c hc).1, (hr c hc).2.1⟩
  · intro c hc; simp at hc; subst hc; unfold IsDigit; grind

theorem pFrac_complete {t u r : Bytes} (h : FracPart t) (hu : ExpPart u) (hr : FollowNum r) :
    pFrac (t ++ (u ++ r)) = some r := by
  have hh := ExpPart.head_digit hu hr
  rcases h with rfl | ⟨ds, rfl, h0, hd⟩
  · rw [List.nil_append]
    cases hs : u ++ r with
    | nil => simp at hs; simp [pFrac, hs]
    | cons c q =>
      rw [hs] at hh
      have := (hh c (by simp)).2
      simp only [pFrac]
      rw [if_neg this, ← hs]
      exact pExp_complete hu hr
  · simp only [List.cons_append, pFrac]
    rw [if_pos trivial, pDigits1_complete h0 hd (fun c hc => (hh c hc).1)]
    exact pExp_complete hu hr

theorem FracPart.head_digit {t u r : Bytes} (ht : FracPart t) (h : ExpPart u) (hr : FollowNum r) :
    ∀ c ∈ (t ++ (u ++ r)).head?, ¬ IsDigit c := by
  rcases ht with rfl | ⟨ds, rfl, _⟩
  · intro c hc; exact (ExpPart.head_digit h hr c hc).1
  · intro c hc; simp at hc; subst hc; decide

theorem pInt_sound {c : UInt8} {q r : Bytes} (hd : IsDigit c) (h : pInt (c :: q) = some r) :
    ∃ ip fp ep, c :: q = ip ++ (fp ++ (ep ++ r)) ∧ IntPart ip ∧ FracPart fp ∧ ExpPart ep := by
  simp only [pInt] at h
  split at h
  · rename_i hc
    obtain ⟨t, u, h1, h2, h3⟩ := pFrac_sound h
    exact ⟨[c], t, u, by simp [h3], .inl (by rw [hc]), h1, h2⟩
  · rename_i hc
    obtain ⟨t, u, h1, h2, h3⟩ := pFrac_sound h
    obtain ⟨ds, g1, g2⟩ := pDigits_spec q
    have e : pDigits (c :: q) = pDigits q := by simp [pDigits, hd]
    rw [e] at h3
    exact ⟨c :: ds, t, u, by rw [List.cons_append, ← h3, ← g2], .inr ⟨c, ds, rfl, hd, hc, g1⟩, h1, h2⟩

theorem IntPart.cons {ip : Bytes} (h : IntPart ip) : ∃ c q, ip = c :: q ∧ IsDigit c := by
  rcases h with rfl | ⟨d, ds, rfl, h, _⟩
  · exact ⟨_, _, rfl, by decide⟩
  · exact ⟨_, _, rfl, h⟩

theorem pInt_complete {ip fp ep r : Bytes} (h1 : IntPart ip) (h2 : FracPart fp) (h3 : ExpPart ep)
    (hr : FollowNum r) : pInt (ip ++ (fp ++ (ep ++ r))) = some r := by
  rcases h1 with rfl | ⟨d, ds, rfl, hd, h0, hds⟩
  · simp only [List.cons_append, List.nil_append, pInt]
    rw [if_pos trivial]
    exact pFrac_complete h2 h3 hr
  · simp only [List.cons_append, pInt]
    rw [if_neg h0, ← List.cons_append, pDigits_append, pDigits_stop (FracPart.head_digit h2 h3 hr)]
    · exact pFrac_complete h2 h3 hr
    · intro c hc; simp at hc; rcases hc with rfl | hc; exact hd; exact hds c hc

theorem pNum_sound {c : UInt8} {q r : Bytes} (hd : c = c! '-' ∨ IsDigit c)
    (h : pNum (c :: q) = some r) : ∃ t, NumLit t ∧ c :: q = t ++ r := by
  simp only [pNum] at h
  split at h
  · rename_i hc
    cases q with
    | nil => simp at h
    | cons d q =>
      simp only at h
      split at h
      · rename_i hd
        obtain ⟨ip, fp, ep, h1, h2, h3, h4⟩ := pInt_sound hd h
        exact ⟨_, ⟨[c], ip, fp, ep, rfl, .inr (by rw [hc]), h2, h3, h4⟩, by simp [h1]⟩
      · simp at h
  · rename_i hc
    obtain ⟨ip, fp, ep, h1, h2, h3, h4⟩ := pInt_sound (hd.resolve_left hc) h
    exact ⟨_, ⟨[], ip, fp, ep, rfl, .inl rfl, h2, h3, h4⟩, by simp [h1]⟩

theorem NumLit.cons {t : Bytes} (h : NumLit t) :
    ∃ c q, t = c :: q ∧ (c = c! '-' ∨ IsDigit c) := by
  obtain ⟨sg, ip, fp, ep, rfl, hs, h1, _, _⟩ := h
  obtain ⟨c, q, rfl, hc⟩ := IntPart.cons h1
  rcases hs with rfl | rfl
  · exact ⟨_, _, rfl, .inr hc⟩
  · exact ⟨_, _, rfl, .inl rfl⟩

theorem pNum_complete {t r : Bytes} (h : NumLit t) (hr : FollowNum r) : pNum (t ++ r) = some r := by
  obtain ⟨sg, ip, fp, ep, rfl, hs, h1, h2, h3⟩ := h
  have := pInt_complete h1 h2 h3 hr
  obtain ⟨c, q, rfl, hc⟩ := IntPart.cons h1
  rcases hs with rfl | rfl
  · simp only [List.nil_append, List.cons_append, pNum, List.append_assoc] at this ⊢
    rw [if_neg (by unfold IsDigit at hc; grind)]
    exact this
  · simp only [List.nil_append, List.cons_append, pNum, List.append_assoc] at this ⊢
    rw [if_pos trivial, if_pos hc]
    exact this

/-! ### Literals -/

theorem pLit_sound {lit s r : Bytes} (h : pLit lit s = some r) : s = lit ++ r := by
  unfold pLit at h
  split at h
  · rename_i hp
    obtain ⟨q, rfl⟩ := hp
    simp at h; simp [h]
  · simp at h

theorem pLit_complete (lit r : Bytes) : pLit lit (lit ++ r) = some r := by
  simp [pLit]

/-! ### Containers: soundness -/

/-- A parser returns only after whitespace and one JSON value. -/
def PSound (any : Bytes → Option Bytes) : Prop :=
  ∀ s r, any s = some r → ∃ w v, Ws w ∧ IsValue v ∧ s = w ++ (v ++ r)

theorem pArrLoop_sound {any : Bytes → Option Bytes} (ha : PSound any) :
    ∀ {n : Nat} {s r : Bytes}, pArrLoop any n s = some r →
      ∃ es : List Elem, es ≠ [] ∧ (∀ e ∈ es, e.Wf) ∧ (∀ e ∈ es, IsValue e.val) ∧
        s = elemsText es ++ c! ']' :: r
  | 0, _, _, h => by simp [pArrLoop] at h
  | n + 1, s, r, h => by
    unfold pArrLoop at h
    cases hs : any s with
    | none => rw [hs] at h; simp at h
    | some q =>
      rw [hs] at h
      simp only at h
      obtain ⟨w, v, hw, hv, rfl⟩ := ha _ _ hs
      obtain ⟨w2, hw2, hq, _⟩ := pWs_spec q
      cases hp : pWs q with
      | nil => rw [hp] at h; simp at h
      | cons c q' =>
        rw [hp] at h hq
        simp only at h
        split at h
        · rename_i hc
          simp at h
          refine ⟨[⟨w, v, w2⟩], by simp, by simpa [Elem.Wf] using ⟨hw, hw2⟩, by simpa using hv, ?_⟩
          simp [elemsText, Elem.text, hq, hc, h]
        · split at h
          · rename_i hc
            obtain ⟨es, h1, h2, h3, h4⟩ := pArrLoop_sound ha h
            refine ⟨⟨w, v, w2⟩ :: es, by simp, ?_, ?_, ?_⟩
            · intro e he; simp at he; rcases he with rfl | he; exact ⟨hw, hw2⟩; exact h2 e he
            · intro e he; simp at he; rcases he with rfl | he; exact hv; exact h3 e he
            · cases es with
              | nil => exact absurd rfl h1
              | cons e es => simp [elemsText, Elem.text, hq, hc, h4]
          · simp at h

theorem pObjLoop_sound {any : Bytes → Option Bytes} (ha : PSound any) :
    ∀ {n : Nat} {s r : Bytes}, pObjLoop any n s = some r →
      ∃ ms : List Member, ms ≠ [] ∧ (∀ m ∈ ms, m.Wf) ∧ (∀ m ∈ ms, IsValue m.val) ∧
        s = membersText ms ++ c! '}' :: r
  | 0, _, _, h => by simp [pObjLoop] at h
  | n + 1, [], r, h => by simp [pObjLoop] at h
  | n + 1, c :: s, r, h => by
    simp only [pObjLoop] at h
    split at h
    · rename_i hc
      subst hc
      cases hs : pStr s with
      | none => rw [hs] at h; simp at h
      | some q =>
        rw [hs] at h
        simp only at h
        obtain ⟨b, hb, rfl⟩ := pStr_sound hs
        obtain ⟨w1, hw1, hq1, _⟩ := pWs_spec q
        cases hp : pWs q with
        | nil => rw [hp] at h; simp at h
        | cons d q' =>
          rw [hp] at h hq1
          simp only at h
          split at h
          · rename_i hd
            subst hd
            cases hs2 : any q' with
            | none => rw [hs2] at h; simp at h
            | some r2 =>
              rw [hs2] at h
              simp only at h
              obtain ⟨w, v, hw, hv, rfl⟩ := ha _ _ hs2
              obtain ⟨w2, hw2, hq, _⟩ := pWs_spec r2
              cases hp2 : pWs r2 with
              | nil => rw [hp2] at h; simp at h
              | cons e q2 =>
                rw [hp2] at h hq
                simp only at h
                split at h
                · rename_i hc
                  simp at h
                  refine ⟨[⟨[], c! '"' :: (b ++ [c! '"']), w1, w, v, w2⟩], by simp, ?_, by simpa using hv, ?_⟩
                  · simpa [Member.Wf] using ⟨Ws.nil, ⟨b, hb, rfl⟩, hw1, hw, hw2⟩
                  · simp [membersText, Member.text, hq, hq1, hc, h]
                · split at h
                  · rename_i hc
                    obtain ⟨w3, hw3, hq3, _⟩ := pWs_spec q2
                    obtain ⟨ms, h1, h2, h3, h4⟩ := pObjLoop_sound ha h
                    cases ms with
                    | nil => exact absurd rfl h1
                    | cons m ms =>
                      refine ⟨⟨[], c! '"' :: (b ++ [c! '"']), w1, w, v, w2⟩ ::
                        ⟨w3 ++ m.pre, m.key, m.mid1, m.mid2, m.val, m.post⟩ :: ms, by simp, ?_, ?_, ?_⟩
                      · intro x hx
                        simp only [List.mem_cons] at hx
                        rcases hx with rfl | rfl | hx
                        · exact ⟨Ws.nil, ⟨b, hb, rfl⟩, hw1, hw, hw2⟩
                        · have := h2 m (by simp)
                          exact ⟨Ws.append hw3 this.1, this.2⟩
                        · exact h2 x (by simp [hx])
                      · intro x hx
                        simp only [List.mem_cons] at hx
                        rcases hx with rfl | rfl | hx
                        · exact hv
                        · exact h3 m (by simp)
                        · exact h3 x (by simp [hx])
                      · rw [h4] at hq3
                        cases ms <;> simp [membersText, Member.text, hq, hq1, hc, hq3]
                  · simp at h
          · simp at h
    · simp at h

theorem pAny_sound : ∀ (d : Nat), PSound (pAny d)
  | 0 => fun s r h => by simp [pAny] at h
  | d + 1 => fun s r h => by
    have ih := pAny_sound d
    obtain ⟨w, hw, hs, _⟩ := pWs_spec s
    unfold pAny at h
    cases hp : pWs s with
    | nil => rw [hp] at h; simp at h
    | cons c q =>
      rw [hp] at h hs
      simp only at h
      suffices hh : ∃ v, IsValue v ∧ c :: q = v ++ r by
        obtain ⟨v, h1, h2⟩ := hh
        exact ⟨w, v, hw, h1, by rw [hs, h2]⟩
      split at h
      · rename_i hc
        subst hc
        obtain ⟨w1, hw1, hq1, _⟩ := pWs_spec q
        unfold pObj at h
        cases hp1 : pWs q with
        | nil => rw [hp1] at h; simp at h
        | cons e q' =>
          rw [hp1] at h hq1
          simp only at h
          split at h
          · rename_i he
            simp at h
            exact ⟨_, .objEmpty hw1, by simp [hq1, he, h]⟩
          · obtain ⟨ms, h1, h2, h3, h4⟩ := pObjLoop_sound ih h
            cases ms with
            | nil => exact absurd rfl h1
            | cons m ms =>
              refine ⟨_, .obj (ms := ⟨w1 ++ m.pre, m.key, m.mid1, m.mid2, m.val, m.post⟩ :: ms)
                (by simp) ?_ ?_, ?_⟩
              · intro x hx
                simp only [List.mem_cons] at hx
                rcases hx with rfl | hx
                · have := h2 m (by simp)
                  exact ⟨Ws.append hw1 this.1, this.2⟩
                · exact h2 x (by simp [hx])
              · intro x hx
                simp only [List.mem_cons] at hx
                rcases hx with rfl | hx
                · exact h3 m (by simp)
                · exact h3 x (by simp [hx])
              · rw [hq1, h4]
                cases ms <;> simp [membersText, Member.text]
      · split at h
        · rename_i hc
          subst hc
          obtain ⟨w1, hw1, hq1, _⟩ := pWs_spec q
          unfold pArr at h
          cases hp1 : pWs q with
          | nil => rw [hp1] at h; simp at h
          | cons e q' =>
            rw [hp1] at h hq1
            simp only at h
            split at h
            · rename_i he
              simp at h
              exact ⟨_, .arrEmpty hw1, by simp [hq1, he, h]⟩
            · obtain ⟨ms, h1, h2, h3, h4⟩ := pArrLoop_sound ih h
              cases ms with
              | nil => exact absurd rfl h1
              | cons m ms =>
                refine ⟨_, .arr (es := ⟨w1 ++ m.pre, m.val, m.post⟩ :: ms) (by simp) ?_ ?_, ?_⟩
                · intro x hx
                  simp only [List.mem_cons] at hx
                  rcases hx with rfl | hx
                  · have := h2 m (by simp)
                    exact ⟨Ws.append hw1 this.1, this.2⟩
                  · exact h2 x (by simp [hx])
                · intro x hx
                  simp only [List.mem_cons] at hx
                  rcases hx with rfl | hx
                  · exact h3 m (by simp)
                  · exact h3 x (by simp [hx])
                · rw [hq1, h4]
                  cases ms <;> simp [elemsText, Elem.text]
        · split at h
          · rename_i hc
            obtain ⟨b, hb, rfl⟩ := pStr_sound h
            exact ⟨_, .str ⟨b, hb, rfl⟩, by simp [hc]⟩
          · split at h
            · exact ⟨_, .true, pLit_sound h⟩
            · split at h
              · exact ⟨_, .false, pLit_sound h⟩
              · split at h
                · exact ⟨_, .null, pLit_sound h⟩
                · split at h
                  · rename_i hd
                    obtain ⟨t, h1, h2⟩ := pNum_sound hd h
                    exact ⟨t, .num h1, h2⟩
                  · simp at h

/-! ### Containers: completeness -/

theorem pAny_ws {d : Nat} {w s : Bytes} (h : Ws w) : pAny d (w ++ s) = pAny d s := by
  cases d with
  | zero => rfl
  | succ d => unfold pAny; rw [pWs_append h]

theorem elemsText_cons (e : Elem) (es : List Elem) :
    elemsText (e :: es) = e.text ++ (match es with | [] => [] | _ => c! ',' :: elemsText es) := by
  cases es <;> simp [elemsText]

theorem membersText_cons (e : Member) (es : List Member) :
    membersText (e :: es) = e.text ++ (match es with | [] => [] | _ => c! ',' :: membersText es) := by
  cases es <;> simp [membersText]

theorem Elem.text_le {e : Elem} {es : List Elem} (h : e ∈ es) : e.text.length ≤ (elemsText es).length := by
  induction es with
  | nil => simp at h
  | cons a es ih =>
    rw [elemsText_cons]
    rcases List.mem_cons.1 h with rfl | h
    · simp
    · have := ih h
      cases es with
      | nil => simp at h
      | cons b es => simp; omega

theorem Member.text_le {e : Member} {es : List Member} (h : e ∈ es) :
    e.text.length ≤ (membersText es).length := by
  induction es with
  | nil => simp at h
  | cons a es ih =>
    rw [membersText_cons]
    rcases List.mem_cons.1 h with rfl | h
    · simp
    · have := ih h
      cases es with
      | nil => simp at h
      | cons b es => simp; omega

theorem pArrLoop_complete {any : Bytes → Option Bytes} (haw : ∀ w s, Ws w → any (w ++ s) = any s) :
    ∀ {es : List Elem} {n : Nat} {r : Bytes}, es ≠ [] → (∀ e ∈ es, e.Wf) →
      (∀ e ∈ es, ∀ q, Follow q → any (e.val ++ q) = some q) → es.length ≤ n →
      pArrLoop any n (elemsText es ++ c! ']' :: r) = some r
  | [], _, _, h, _, _, _ => absurd rfl h
  | _ :: _, 0, _, _, _, _, h => by simp at h
  | [e], n + 1, r, _, hw, hv, _ => by
    have hwf := hw e (by simp)
    unfold pArrLoop
    simp only [elemsText, Elem.text, List.append_assoc]
    rw [haw _ _ hwf.1, hv e (by simp) _ (Follow.ws hwf.2 .brack)]
    simp only
    rw [pWs_append hwf.2, pWs_cons_not (by decide)]
    simp
  | e :: f :: es, n + 1, r, _, hw, hv, hn => by
    have hwf := hw e (by simp)
    unfold pArrLoop
    simp only [elemsText, Elem.text, List.append_assoc, List.cons_append]
    rw [haw _ _ hwf.1, hv e (by simp) _ (Follow.ws hwf.2 .comma)]
    simp only
    rw [pWs_append hwf.2, pWs_cons_not (by decide)]
    simp only
    rw [if_neg (by decide), if_pos trivial]
    exact pArrLoop_complete haw (by simp) (fun e he => hw e (by simp [List.mem_cons.1 he]))
      (fun e he => hv e (by simp [List.mem_cons.1 he])) (by simpa using hn)

/-- First byte of a member list without its leading whitespace. -/
theorem membersText_pWs {m : Member} {ms : List Member} {q : Bytes} (h : m.Wf) :
    pWs (membersText (m :: ms) ++ q) =
      membersText ({ m with pre := [] } :: ms) ++ q ∧
      ∃ b, StrBody b ∧ membersText ({ m with pre := [] } :: ms) ++ q =
        c! '"' :: (b ++ c! '"' :: (m.mid1 ++ c! ':' :: (m.mid2 ++ (m.val ++ (m.post ++
          ((match ms with | [] => [] | _ => c! ',' :: membersText ms) ++ q)))))) := by
  obtain ⟨h1, ⟨b, hb, hk⟩, _⟩ := h
  rw [membersText_cons, membersText_cons]
  simp only [Member.text, hk, List.append_assoc, List.cons_append, List.nil_append]
  constructor
  · rw [pWs_append h1, pWs_cons_not (by decide)]
  · exact ⟨b, hb, rfl⟩

theorem pObjLoop_complete {any : Bytes → Option Bytes} (haw : ∀ w s, Ws w → any (w ++ s) = any s) :
    ∀ {ms : List Member} {n : Nat} {r : Bytes}, ms ≠ [] → (∀ e ∈ ms, e.Wf) →
      (∀ e ∈ ms, ∀ q, Follow q → any (e.val ++ q) = some q) → ms.length ≤ n →
      pObjLoop any n (pWs (membersText ms ++ c! '}' :: r)) = some r
  | [], _, _, h, _, _, _ => absurd rfl h
  | _ :: _, 0, _, _, _, _, h => by simp at h
  | [m], n + 1, r, _, hw, hv, _ => by
    have hwf := hw m (by simp)
    obtain ⟨h1, b, hb, h2⟩ := membersText_pWs (ms := []) (q := c! '}' :: r) hwf
    rw [h1, h2]
    obtain ⟨_, _, hm1, hm2, hp⟩ := hwf
    simp only [pObjLoop]
    rw [if_pos trivial, pStr_complete hb]
    simp only
    rw [pWs_append hm1, pWs_cons_not (by decide)]
    simp only
    rw [if_pos trivial, haw _ _ hm2, List.nil_append, hv m (by simp) _ (Follow.ws hp .brace)]
    simp only
    rw [pWs_append hp, pWs_cons_not (by decide)]
    simp
  | m :: f :: ms, n + 1, r, _, hw, hv, hn => by
    have hwf := hw m (by simp)
    obtain ⟨h1, b, hb, h2⟩ := membersText_pWs (ms := f :: ms) (q := c! '}' :: r) hwf
    rw [h1, h2]
    obtain ⟨_, _, hm1, hm2, hp⟩ := hwf
    simp only [pObjLoop]
    rw [if_pos trivial, pStr_complete hb]
    simp only
    rw [pWs_append hm1, pWs_cons_not (by decide)]
    simp only
    rw [if_pos trivial, haw _ _ hm2, List.cons_append, hv m (by simp) _ (Follow.ws hp .comma)]
    simp only
    rw [pWs_append hp, pWs_cons_not (by decide)]
    simp only
    rw [if_neg (by decide), if_pos trivial]
    exact pObjLoop_complete haw (by simp) (fun e he => hw e (by simp [List.mem_cons.1 he]))
      (fun e he => hv e (by simp [List.mem_cons.1 he])) (by simpa using hn)

/-- First byte of a value. -/
def StartsValue (c : UInt8) : Prop :=
  c = c! '{' ∨ c = c! '[' ∨ c = c! '"' ∨ c = c! 't' ∨ c = c! 'f' ∨ c = c! 'n' ∨ c = c! '-' ∨ IsDigit c

theorem IsValue.cons {v : Bytes} (h : IsValue v) : ∃ c q, v = c :: q ∧ StartsValue c := by
  cases h with
  | null => exact ⟨_, _, rfl, by simp [StartsValue]⟩
  | true => exact ⟨_, _, rfl, by simp [StartsValue]⟩
  | false => exact ⟨_, _, rfl, by simp [StartsValue]⟩
  | str h => obtain ⟨b, _, rfl⟩ := h; exact ⟨_, _, rfl, by simp [StartsValue]⟩
  | num h =>
    obtain ⟨c, q, rfl, hc⟩ := NumLit.cons h
    exact ⟨_, _, rfl, by simp only [StartsValue]; grind⟩
  | arrEmpty _ => exact ⟨_, _, rfl, by simp [StartsValue]⟩
  | arr _ _ _ => exact ⟨_, _, rfl, by simp [StartsValue]⟩
  | objEmpty _ => exact ⟨_, _, rfl, by simp [StartsValue]⟩
  | obj _ _ _ => exact ⟨_, _, rfl, by simp [StartsValue]⟩

theorem StartsValue.not_ws {c : UInt8} (h : StartsValue c) : ¬ IsWs c := by
  unfold StartsValue IsDigit at h
  unfold IsWs
  grind (splits := 20)

theorem pAny_complete {v : Bytes} (h : IsValue v) :
    ∀ {d : Nat} {r : Bytes}, v.length ≤ d → Follow r → pAny d (v ++ r) = some r := by
  induction h with
  | null =>
    intro d r hd hr
    match d, hd with
    | d + 1, _ =>
      unfold pAny
      simp only [List.cons_append, List.nil_append]
      rw [pWs_cons_not (by decide)]
      exact pLit_complete b!"null" r
  | true =>
    intro d r hd hr
    match d, hd with
    | d + 1, _ =>
      unfold pAny
      simp only [List.cons_append, List.nil_append]
      rw [pWs_cons_not (by decide)]
      exact pLit_complete b!"true" r
  | false =>
    intro d r hd hr
    match d, hd with
    | d + 1, _ =>
      unfold pAny
      simp only [List.cons_append, List.nil_append]
      rw [pWs_cons_not (by decide)]
      exact pLit_complete b!"false" r
  | str h =>
    intro d r hd hr
    obtain ⟨b, hb, rfl⟩ := h
    match d, hd with
    | d + 1, _ =>
      unfold pAny
      simp only [List.cons_append, List.nil_append, List.append_assoc]
      rw [pWs_cons_not (by decide)]
      exact pStr_complete hb
  | num h =>
    intro d r hd hr
    have h1 := pNum_complete h hr.num
    obtain ⟨c, q, rfl, hc⟩ := NumLit.cons h
    match d, hd with
    | d + 1, _ =>
      unfold pAny
      simp only [List.cons_append] at h1 ⊢
      rw [pWs_cons_not (by unfold IsDigit at hc; unfold IsWs; grind)]
      simp only
      have hc' := hc
      unfold IsDigit at hc'
      rw [if_neg (by grind), if_neg (by grind), if_neg (by grind), if_neg (by grind),
        if_neg (by grind), if_neg (by grind), if_pos hc]
      exact h1
  | arrEmpty hw =>
    intro d r hd hr
    match d, hd with
    | d + 1, _ =>
      unfold pAny
      simp only [List.cons_append, List.append_assoc, List.nil_append]
      rw [pWs_cons_not (by decide)]
      simp only
      rw [if_neg (by decide), if_pos trivial]
      unfold pArr
      rw [pWs_append hw, pWs_cons_not (by decide)]
      simp
  | objEmpty hw =>
    intro d r hd hr
    match d, hd with
    | d + 1, _ =>
      unfold pAny
      simp only [List.cons_append, List.append_assoc, List.nil_append]
      rw [pWs_cons_not (by decide)]
      simp only
      rw [if_pos trivial]
      unfold pObj
      rw [pWs_append hw, pWs_cons_not (by decide)]
      simp
  | @arr es h0 hw hv ih =>
    intro d r hd hr
    match d, hd with
    | d + 1, hd =>
      unfold pAny
      simp only [List.cons_append, List.append_assoc, List.nil_append]
      rw [pWs_cons_not (by decide)]
      simp only
      rw [if_neg (by decide), if_pos trivial]
      have hlen : ∀ es : List Elem, (∀ e ∈ es, IsValue e.val) → es.length ≤ (elemsText es).length := by
        intro es hv
        induction es with
        | nil => simp
        | cons e es ih =>
          rw [elemsText_cons]
          obtain ⟨c, q, hq, _⟩ := IsValue.cons (hv e (by simp))
          have := ih (fun x hx => hv x (by simp [hx]))
          cases es <;> simp [Elem.text, hq] <;> simp at this <;> omega
      have hloop := pArrLoop_complete (any := pAny d) (es := es) (n := d + 1) (r := r)
        (fun w s h => pAny_ws h) h0 hw
        (fun e he q hq => ih e he (by
          have := Elem.text_le he
          simp [Elem.text] at this hd; omega) hq)
        (by have := hlen es hv; simp at hd; omega)
      cases es with
      | nil => exact absurd rfl h0
      | cons e es =>
        obtain ⟨c, q, hq, hc⟩ := IsValue.cons (hv e (by simp))
        have hwf := hw e (by simp)
        unfold pArr
        have e1 : pWs (elemsText (e :: es) ++ c! ']' :: r) =
            elemsText ({ e with pre := [] } :: es) ++ c! ']' :: r := by
          rw [elemsText_cons, elemsText_cons]
          simp only [Elem.text, hq, List.append_assoc, List.cons_append, List.nil_append]
          rw [pWs_append hwf.1, pWs_cons_not hc.not_ws]
        rw [e1]
        have e2 : ∃ q', elemsText ({ e with pre := [] } :: es) ++ c! ']' :: r = c :: q' := by
          rw [elemsText_cons]
          simp only [Elem.text, hq, List.append_assoc, List.cons_append, List.nil_append]
          exact ⟨_, rfl⟩
        obtain ⟨q', e2⟩ := e2
        rw [e2]
        simp only
        rw [if_neg (by unfold StartsValue IsDigit at hc; grind), ← e2]
        rw [← hloop]
        unfold pArrLoop
        have e3 : pAny d (elemsText ({ e with pre := [] } :: es) ++ c! ']' :: r) =
            pAny d (elemsText (e :: es) ++ c! ']' :: r) := by
          rw [elemsText_cons, elemsText_cons]
          simp only [Elem.text, List.append_assoc, List.nil_append]
          rw [pAny_ws hwf.1]
        rw [e3]
  | @obj ms h0 hw hv ih =>
    intro d r hd hr
    match d, hd with
    | d + 1, hd =>
      unfold pAny
      simp only [List.cons_append, List.append_assoc, List.nil_append]
      rw [pWs_cons_not (by decide)]
      simp only
      rw [if_pos trivial]
      have hlen : ∀ es : List Member, (∀ e ∈ es, IsValue e.val) → es.length ≤ (membersText es).length := by
        intro es hv
        induction es with
        | nil => simp
        | cons e es ih =>
          rw [membersText_cons]
          have := ih (fun x hx => hv x (by simp [hx]))
          cases es <;> simp [Member.text] <;> simp at this <;> omega
      have hloop := pObjLoop_complete (any := pAny d) (ms := ms) (n := d + 1) (r := r)
        (fun w s h => pAny_ws h) h0 hw
        (fun e he q hq => ih e he (by
          have := Member.text_le he
          simp [Member.text] at this hd; omega) hq)
        (by have := hlen ms hv; simp at hd; omega)
      cases ms with
      | nil => exact absurd rfl h0
      | cons m ms =>
        obtain ⟨h1, b, hb, h2⟩ := membersText_pWs (ms := ms) (q := c! '}' :: r) (hw m (by simp))
        unfold pObj
        rw [h1, h2] at hloop ⊢
        simp only
        rw [if_neg (by decide)]
        exact hloop

theorem pText_iff (s : Bytes) : pText s = true ↔ JsonText s := by
  unfold pText
  constructor
  · intro h
    cases hp : pAny (s.length + 1) s with
    | none => rw [hp] at h; simp at h
    | some r =>
      rw [hp] at h
      simp only [decide_eq_true_eq] at h
      obtain ⟨w, v, h1, h2, h3⟩ := pAny_sound _ _ _ hp
      exact ⟨w, v, r, h3, h1, pWs_eq_nil.1 h, h2⟩
  · rintro ⟨w1, v, w2, rfl, h1, h2, hv⟩
    rw [pAny_ws h1, pAny_complete hv (by simp; omega) (Follow.ws' h2)]
    simpa using pWs_eq_nil.2 h2

end Gjson
