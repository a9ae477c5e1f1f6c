import Verif.Lemmas.Group
import Verif.Lemmas.Balanced
/-
Paths with a query: how `path_next` and `query_parts` take them apart.
-/
namespace Gjson
open Spec

/-! ### `trim` -/

theorem trimStart_blank {w s : Bytes} (h : Blank w) : trimStart (w ++ s) = trimStart s := by
  induction w with
  | nil => rfl
  | cons c r ih =>
    rw [List.cons_append, trimStart, if_pos (h c (by simp))]
    exact ih (fun x hx => h x (by simp [hx]))

theorem trimStart_id {s : Bytes} (h : ∀ c ∈ s.head?, ¬ c ≤ 0x20) : trimStart s = s := by
  cases s with
  | nil => rfl
  | cons c r => rw [trimStart, if_neg (h c (by simp))]

theorem blank_reverse {w : Bytes} (h : Blank w) : Blank w.reverse := fun c hc => h c (by simpa using hc)

theorem trim_pad {w1 w2 s : Bytes} (h1 : Blank w1) (h2 : Blank w2) (h : Trimmed s) : trim (w1 ++ (s ++ w2)) = s := by
  unfold trim
  rw [trimStart_blank h1]
  cases s with
  | nil =>
    have : trimStart ([] ++ w2) = [] := by
      have := trimStart_blank (s := []) h2
      simpa [trimStart] using this
    rw [this]; rfl
  | cons c r =>
    rw [trimStart_id (s := (c :: r) ++ w2) (by simpa using h.1)]
    rw [List.reverse_append, trimStart_blank (blank_reverse h2), trimStart_id, List.reverse_reverse]
    rw [List.head?_reverse]
    exact h.2

theorem trim_id {s : Bytes} (h : Trimmed s) : trim s = s := by
  have := trim_pad (w1 := []) (w2 := []) (s := s) (by simp [Blank]) (by simp [Blank]) h
  simpa using this

/-! ### The operator -/

theorem queryOpLoop_skip {query : Bytes} : ∀ {p r : Bytes} {n i : Nat}, (∀ c ∈ p, c ∉ b!"\\()<>=!%") → At query i (p ++ r) →
    queryOpLoop query (n + p.length) i 0 = queryOpLoop query n (i + p.length) 0
  | [], _, _, _, _, _ => rfl
  | c :: p, r, n, i, hp, h => by
    have hc := hp c (by simp)
    rw [List.cons_append] at h
    rw [show n + (c :: p).length = (n + p.length) + 1 by simp; omega, queryOpLoop, if_pos h.lt, h.idx]
    have hop : queryOpAt query i c = .ok none := by
      unfold queryOpAt
      simp only [List.mem_cons, List.not_mem_nil, or_false, not_or] at hc
      rw [if_neg (by grind), if_neg (by grind), if_neg (by grind)]
    simp only [ok_bind]
    rw [hop]
    simp only [List.mem_cons, List.not_mem_nil, or_false, not_or] at hc
    rw [if_neg (by grind), if_neg (by grind), if_neg (by grind), if_neg (by omega)]
    simp only [ok_bind]
    rw [queryOpLoop_skip (fun x hx => hp x (by simp [hx])) h.cons]
    congr 1; simp; omega

/-- One byte without meaning. -/
theorem queryOpLoop_byte {query : Bytes} {c : UInt8} {r : Bytes} {n i d : Nat} (h : At query i (c :: r)) (h1 : c ∉ b!"\\()")
    (h2 : 0 < d ∨ c ∉ b!"<>=!%") : queryOpLoop query (n + 1) i d = queryOpLoop query n (i + 1) d := by
  simp only [List.mem_cons, List.not_mem_nil, or_false, not_or] at h1 h2
  rw [queryOpLoop, if_pos h.lt, h.idx]
  simp only [ok_bind]
  rw [if_neg h1.1, if_neg h1.2.1, if_neg h1.2.2]
  by_cases hd : 0 < d
  · rw [if_pos (by omega)]
  · rw [if_neg (by omega)]
    have hop : queryOpAt query i c = .ok none := by
      unfold queryOpAt
      rw [if_neg (by grind), if_neg (by grind), if_neg (by grind)]
    rw [hop]
    rfl

theorem queryOpLoop_esc {query : Bytes} {e : UInt8} {r : Bytes} {n i d : Nat} (h : At query i (c! '\\' :: e :: r)) :
    queryOpLoop query (n + 1) i d = queryOpLoop query n (i + 2) d := by
  rw [queryOpLoop, if_pos h.lt, h.idx]
  simp only [ok_bind]
  rw [if_pos trivial, if_neg h.cons.ne]

theorem queryOpLoop_quoted {query : Bytes} {inside : Bool} {p : Bytes} (hp : LeftQuoted inside p) {d : Nat} (hd : inside = true → 0 < d) :
    ∀ {r : Bytes} (n i : Nat), At query i (p ++ r) → ∃ m, n ≤ m ∧ queryOpLoop query (n + p.length) i d = queryOpLoop query m (i + p.length) d := by
  induction hp with
  | nil => exact fun n i _ => ⟨n, Nat.le_refl _, rfl⟩
  | @plain c p h1 h2 _ ih =>
    intro r n i h
    obtain ⟨m, hm, e⟩ := ih n (i + 1) h.cons
    refine ⟨m, hm, ?_⟩
    rw [show n + (c :: p).length = (n + p.length) + 1 by simp; omega, queryOpLoop_byte h (by simp only [List.mem_cons, List.not_mem_nil, or_false, not_or] at h1 ⊢; exact h1.2) (h2.imp_left hd), e]
    congr 1; simp; omega
  | @esc x p _ ih =>
    intro r n i h
    obtain ⟨m, hm, e⟩ := ih (n + 1) (i + 2) h.cons.cons
    refine ⟨m, by omega, ?_⟩
    rw [show n + (c! '\\' :: x :: p).length = (n + 1 + p.length) + 1 by simp; omega, queryOpLoop_esc h, e]
    congr 1; simp; omega

/-- The left side is passed over. -/
theorem queryOpLoop_left {query : Bytes} {inside : Bool} {p : Bytes} (hp : LeftText inside p) :
    ∀ {d : Nat}, (inside = true → 0 < d) → ∀ {r : Bytes} (n i : Nat), At query i (p ++ r) →
      ∃ m, n ≤ m ∧ queryOpLoop query (n + p.length) i d = queryOpLoop query m (i + p.length) d := by
  induction hp with
  | nil => exact fun _ _ n i _ => ⟨n, Nat.le_refl _, rfl⟩
  | @plain inside c p h1 h2 _ ih =>
    intro d hd r n i h
    obtain ⟨m, hm, e⟩ := ih hd n (i + 1) h.cons
    refine ⟨m, hm, ?_⟩
    unfold bracketSpecial at h1
    rw [show n + (c :: p).length = (n + p.length) + 1 by simp; omega,
      queryOpLoop_byte h (by simp only [List.mem_cons, List.not_mem_nil, or_false, not_or] at h1 ⊢; grind) (h2.imp_left hd), e]
    congr 1; simp; omega
  | @esc inside x p _ ih =>
    intro d hd r n i h
    obtain ⟨m, hm, e⟩ := ih hd (n + 1) (i + 2) h.cons.cons
    refine ⟨m, by omega, ?_⟩
    rw [show n + (c! '\\' :: x :: p).length = (n + 1 + p.length) + 1 by simp; omega, queryOpLoop_esc h, e]
    congr 1; simp; omega
  | @str inside b p hb _ ih =>
    intro d hd r n i h
    have e0 : c! '"' :: (b ++ c! '"' :: p) ++ r = c! '"' :: (b ++ (c! '"' :: (p ++ r))) := by simp
    rw [e0] at h
    obtain ⟨m1, hm1, e1⟩ := queryOpLoop_quoted hb hd (n + p.length + 1) (i + 1) h.cons
    obtain ⟨m1, rfl⟩ : ∃ k, m1 = k + p.length + 1 := ⟨m1 - p.length - 1, by omega⟩
    obtain ⟨m2, hm2, e2⟩ := ih hd m1 (i + 1 + b.length + 1) h.cons.append.cons
    refine ⟨m2, by omega, ?_⟩
    rw [show n + (c! '"' :: (b ++ c! '"' :: p)).length = (n + p.length + 1 + b.length) + 1 by simp; omega,
      queryOpLoop_byte h (by decide) (.inr (by decide)), e1, queryOpLoop_byte h.cons.append (by decide) (.inr (by decide)), e2]
    congr 1; simp; omega
  | @paren inside b p _ _ ih1 ih2 =>
    intro d hd r n i h
    have e0 : c! '(' :: (b ++ c! ')' :: p) ++ r = c! '(' :: (b ++ (c! ')' :: (p ++ r))) := by simp
    rw [e0] at h
    obtain ⟨m1, hm1, e1⟩ := ih1 (d := d + 1) (by omega) (n + p.length + 1) (i + 1) h.cons
    obtain ⟨m1, rfl⟩ : ∃ k, m1 = k + p.length + 1 := ⟨m1 - p.length - 1, by omega⟩
    obtain ⟨m2, hm2, e2⟩ := ih2 hd m1 (i + 1 + b.length + 1) h.cons.append.cons
    refine ⟨m2, by omega, ?_⟩
    rw [show n + (c! '(' :: (b ++ c! ')' :: p)).length = (n + p.length + 1 + b.length) + 1 by simp; omega, queryOpLoop, if_pos h.lt, h.idx]
    simp only [ok_bind]
    rw [if_neg (by decide), if_pos trivial]
    have hc : ((d : Int) + 1) = ((d + 1 : Nat) : Int) := by omega
    rw [hc, e1, queryOpLoop, if_pos h.cons.append.lt, h.cons.append.idx]
    simp only [ok_bind]
    rw [if_neg (by decide), if_neg (by decide), if_pos trivial, show (((d + 1 : Nat) : Int) - 1) = (d : Int) by omega, e2]
    congr 1; simp; omega
  | @bracket inside o c b p ho hc _ _ ih1 ih2 =>
    intro d hd r n i h
    have e0 : o :: (b ++ c :: p) ++ r = o :: (b ++ (c :: (p ++ r))) := by simp
    rw [e0] at h
    have hb : ∀ {x : UInt8}, x ∈ b!"[{" ∨ x ∈ b!"]}" → x ∉ b!"\\()" ∧ x ∉ b!"<>=!%" := by
      intro x hx
      simp only [List.mem_cons, List.not_mem_nil, or_false] at hx
      rcases hx with (rfl | rfl) | (rfl | rfl) <;> decide
    obtain ⟨m1, hm1, e1⟩ := ih1 hd (n + p.length + 1) (i + 1) h.cons
    obtain ⟨m1, rfl⟩ : ∃ k, m1 = k + p.length + 1 := ⟨m1 - p.length - 1, by omega⟩
    obtain ⟨m2, hm2, e2⟩ := ih2 hd m1 (i + 1 + b.length + 1) h.cons.append.cons
    refine ⟨m2, by omega, ?_⟩
    rw [show n + (o :: (b ++ c :: p)).length = (n + p.length + 1 + b.length) + 1 by simp; omega,
      queryOpLoop_byte h (hb (.inl ho)).1 (.inr (hb (.inl ho)).2), e1,
      queryOpLoop_byte h.cons.append (hb (.inr hc)).1 (.inr (hb (.inr hc)).2), e2]
    congr 1; simp; omega

theorem queryOpLoop_op {query o r : Bytes} {op : Op} {n i : Nat} (ho : op.Written o) (h : At query i (o ++ r))
    (h1 : o.length = 1 → ∀ c ∈ r.head?, c ≠ c! '=') :
    queryOpLoop query (n + 1) i 0 = .ok (some (i, i + o.length)) := by
  obtain ⟨c, o', rfl⟩ : ∃ c o', o = c :: o' := by
    cases ho with
    | name => cases op <;> exact ⟨_, _, rfl⟩
    | eqEq => exact ⟨_, _, rfl⟩
  rw [List.cons_append] at h
  have hop : queryOpAt query i c = .ok (some (i, i + (c :: o').length)) := by
    have one : ∀ (d : UInt8), o' = [] → (∀ x ∈ r.head?, x ≠ c! '=') →
        (if i + 1 < query.length then do
          let d ← idx query (i + 1)
          if d = c! '=' then .ok (some (i, i + 2)) else .ok (some (i, i + 1))
        else .ok (some (i, i + 1)) : Res (Option (Nat × Nat))) = .ok (some (i, i + 1)) := by
      intro d h0 hx
      subst h0
      split
      · rename_i hl
        have h' := h.cons
        cases r with
        | nil => have := h'.nil; omega
        | cons y r =>
          rw [List.nil_append] at h'
          rw [h'.idx]
          simp only [ok_bind]
          rw [if_neg (hx y (by simp))]
      · rfl
    have two : ∀ d r', o' = d :: r' → i + 1 < query.length ∧ idx query (i + 1) = .ok d := by
      rintro d r' rfl
      exact ⟨h.cons.lt, h.cons.idx⟩
    unfold queryOpAt
    generalize hw : c :: o' = w at ho
    cases ho with
    | name =>
      cases op <;> simp only [Op.name, List.cons.injEq] at hw <;> obtain ⟨rfl, rfl⟩ := hw
      all_goals first
        | exact one 0 rfl (h1 rfl)
        | (obtain ⟨t1, t2⟩ := two _ _ rfl
           simp [t1, t2, Op.name])
        | simp [Op.name]
    | eqEq =>
      simp only [List.cons.injEq] at hw
      obtain ⟨rfl, rfl⟩ := hw
      obtain ⟨t1, t2⟩ := two _ _ rfl
      simp [t1, t2]
  have hne : c ≠ c! '\\' ∧ c ≠ c! '(' ∧ c ≠ c! ')' := by
    generalize hw : c :: o' = w at ho
    cases ho with
    | name => cases op <;> simp only [Op.name, List.cons.injEq] at hw <;> obtain ⟨rfl, rfl⟩ := hw <;> decide
    | eqEq => simp only [List.cons.injEq] at hw; obtain ⟨rfl, rfl⟩ := hw; decide
  rw [queryOpLoop, if_pos h.lt, h.idx]
  simp only [ok_bind]
  rw [hop, if_neg hne.1, if_neg hne.2.1, if_neg hne.2.2, if_neg (by omega)]
  rfl

/-- The text inside the parentheses of `#(…)` or `#(…)#`. -/
theorem queryInner_eq (q : Bytes) (all : Bool) :
    queryInner (b!"#(" ++ (q ++ (c! ')' :: if all then b!"#" else []))) = .ok (some q) := by
  generalize hcomp : b!"#(" ++ (q ++ (c! ')' :: if all then b!"#" else [])) = comp
  have hA : At comp 0 (c! '#' :: c! '(' :: (q ++ (c! ')' :: if all then b!"#" else []))) := by
    rw [← hcomp]; exact At.zero _
  have hq := hA.cons.cons
  have hr := hq.append
  have hlen := hA.len
  unfold queryInner
  rw [if_neg (by simp at hlen; omega), hA.idx, hA.cons.idx]
  cases all with
  | false =>
    simp only [Bool.false_eq_true, if_false] at hr hlen hq ⊢
    have e1 : comp.length - 1 = 0 + 1 + 1 + q.length := by simp at hlen; omega
    rw [e1, hr.idx, hq.slice]
    rfl
  | true =>
    simp only [if_true] at hr hlen hq ⊢
    have e1 : comp.length - 1 = 0 + 1 + 1 + q.length + 1 := by simp at hlen; omega
    have e2 : comp.length - 2 = 0 + 1 + 1 + q.length := by simp at hlen; omega
    rw [e1, e2, hr.idx, hr.cons.idx, hq.slice]
    rfl

theorem written_trimmed {op : Op} {o : Bytes} (h : op.Written o) : Trimmed o ∧ o ≠ [] := by
  cases h with
  | name => cases op <;> (refine ⟨⟨?_, ?_⟩, ?_⟩ <;> decide)
  | eqEq => refine ⟨⟨?_, ?_⟩, ?_⟩ <;> decide

theorem blank_chars {w : Bytes} (h : Blank w) : ∀ c ∈ w, c ∉ b!"\\()<>=!%" := by
  intro c hc
  have := h c hc
  simp only [List.mem_cons, List.not_mem_nil, or_false, not_or]
  grind

theorem right_trimmed {rh : Bytes} (h : QueryRight rh) : Trimmed rh := h.2

theorem blank_append {a b : Bytes} (ha : Blank a) (hb : Blank b) : Blank (a ++ b) := by
  intro c hc
  rcases List.mem_append.1 hc with h | h
  · exact ha c h
  · exact hb c h

theorem blank_nil : Blank [] := by simp [Blank]

/-- The comparison, with no blanks beside an empty side. -/
theorem parts_compare {lh rh o w1 w2 w3 w4 : Bytes} {op : Op} (hl : QueryLeft lh) (ho : op.Written o) (hr : QueryRight rh)
    (h1 : Blank w1) (h2 : Blank w2) (h3 : Blank w3) (h4 : Blank w4)
    (hx : o.length = 1 → ∀ c ∈ (w3 ++ rh).head?, c ≠ c! '=')
    (hw2 : lh = [] → w2 = []) (hw3 : rh = [] → w3 = []) {p : Path} {all : Bool}
    (hp : p.comp = b!"#(" ++ ((w1 ++ (lh ++ (w2 ++ (o ++ (w3 ++ (rh ++ w4)))))) ++ (c! ')' :: if all then b!"#" else []))) :
    p.queryParts = .ok (lh, op.name, rh) := by
  obtain ⟨ht, hne⟩ := written_trimmed ho
  have hT : Trimmed (lh ++ (w2 ++ (o ++ (w3 ++ rh)))) := by
    constructor
    · cases lh with
      | nil =>
        rw [hw2 rfl, List.nil_append, List.nil_append]
        cases o with
        | nil => exact absurd rfl hne
        | cons a o => simpa using ht.1
      | cons a lh => simpa using hl.2.1.1
    · rw [← List.append_assoc, ← List.append_assoc, ← List.append_assoc]
      by_cases h0 : rh = []
      · rw [h0, hw3 h0, List.append_nil, List.append_nil, List.getLast?_append]
        obtain ⟨x, hx⟩ : ∃ x, o.getLast? = some x := by
          cases h : o.getLast? with
          | none => simp at h; exact absurd h hne
          | some x => exact ⟨x, rfl⟩
        rw [hx]; simpa [hx] using ht.2
      · rw [List.getLast?_append]
        obtain ⟨x, hx⟩ : ∃ x, rh.getLast? = some x := by
          cases h : rh.getLast? with
          | none => simp at h; exact absurd h h0
          | some x => exact ⟨x, rfl⟩
        rw [hx]; simpa [hx] using (right_trimmed hr).2
  unfold Path.queryParts
  rw [hp, queryInner_eq]
  simp only [ok_bind]
  have htr : trim (w1 ++ (lh ++ (w2 ++ (o ++ (w3 ++ (rh ++ w4)))))) = lh ++ (w2 ++ (o ++ (w3 ++ rh))) := by
    rw [← trim_pad h1 h4 hT]; simp
  rw [htr]
  generalize hQ : lh ++ (w2 ++ (o ++ (w3 ++ rh))) = query
  have hA : At query 0 ((lh ++ w2) ++ (o ++ (w3 ++ rh))) := by rw [← hQ, List.append_assoc]; exact At.zero _
  have hloop : queryOpLoop query (query.length + 1) 0 0 = .ok (some ((lh ++ w2).length, (lh ++ w2).length + o.length)) := by
    have hlen := hA.len
    have hA1 : At query 0 (lh ++ (w2 ++ (o ++ (w3 ++ rh)))) := by rw [← List.append_assoc]; exact hA
    obtain ⟨m, hm, e⟩ := queryOpLoop_left hl.1 (d := 0) (by simp) (query.length + 1 - lh.length) 0 hA1
    obtain ⟨m, rfl⟩ : ∃ k, m = k + 1 + w2.length := ⟨m - 1 - w2.length, by simp at hlen; omega⟩
    rw [show query.length + 1 - lh.length + lh.length = query.length + 1 by simp at hlen ⊢; omega] at e
    have e : queryOpLoop query (query.length + 1) 0 0 = queryOpLoop query (m + 1 + w2.length) (0 + lh.length) 0 := e
    rw [e, queryOpLoop_skip (blank_chars h2) hA1.append]
    have hA2 := hA1.append.append
    rw [queryOpLoop_op ho hA2 hx]
    simp
  rw [hloop]
  simp only [ok_bind]
  have hA' := hA.append
  rw [Nat.zero_add] at hA'
  rw [hA.slice' (by simp), hA'.slice, hA'.append.sliceFrom]
  simp only [ok_bind]
  have e1 : trim (lh ++ w2) = lh := trim_pad (w1 := []) blank_nil h2 hl.2.1
  have e2 : trim (w3 ++ rh) = rh := by
    have := trim_pad (w2 := []) h3 blank_nil (right_trimmed hr)
    simpa using this
  rw [e1, e2, trim_id ht]
  cases ho with
  | name => cases op <;> rfl
  | eqEq => rfl

/-- What `query_parts` reads. -/
theorem parts_eq {q lh rh : Bytes} {op : Option Op} (h : QueryText q lh op rh) {p : Path} {all : Bool}
    (hp : p.comp = b!"#(" ++ (q ++ (c! ')' :: if all then b!"#" else []))) : pParts p = (lh, opName op, rh) := by
  have : p.queryParts = .ok (lh, opName op, rh) := by
    cases h with
    | @compare _ _ o w1 w2 w3 w4 op hl ho hr h1 h2 h3 h4 hx =>
      by_cases hlh : lh = [] <;> by_cases hrh : rh = []
      · subst hlh; subst hrh
        refine parts_compare (w1 := w1 ++ w2) (w2 := []) (w3 := []) (w4 := w3 ++ w4) (all := all) hl ho hr (blank_append h1 h2)
          blank_nil blank_nil (blank_append h3 h4) (by simp) (by simp) (by simp) (by rw [hp]; simp)
      · subst hlh
        refine parts_compare (w1 := w1 ++ w2) (w2 := []) (w3 := w3) (w4 := w4) (all := all) hl ho hr (blank_append h1 h2)
          blank_nil h3 h4 hx (by simp) (fun h => absurd h hrh) (by rw [hp]; simp)
      · subst hrh
        refine parts_compare (w1 := w1) (w2 := w2) (w3 := []) (w4 := w3 ++ w4) (all := all) hl ho hr h1
          h2 blank_nil (blank_append h3 h4) (by simp) (fun h => absurd h hlh) (by simp) (by rw [hp]; simp)
      · exact parts_compare hl ho hr h1 h2 h3 h4 hx (fun h => absurd h hlh) (fun h => absurd h hrh) hp
    | @present _ w1 w2 hl hne h1 h2 =>
      unfold Path.queryParts
      rw [hp, queryInner_eq]
      simp only [ok_bind]
      rw [trim_pad h1 h2 hl.2.1]
      have hA : At lh 0 (lh ++ []) := by rw [List.append_nil]; exact At.zero _
      obtain ⟨m, hm, e⟩ := queryOpLoop_left hl.1 (d := 0) (by simp) 1 0 hA
      obtain ⟨m, rfl⟩ : ∃ k, m = k + 1 := ⟨m - 1, by omega⟩
      rw [Nat.add_comm] at e
      have e : queryOpLoop lh (lh.length + 1) 0 0 = queryOpLoop lh (m + 1) (0 + lh.length) 0 := e
      rw [e, queryOpLoop, if_neg (by omega)]
      rfl
  rw [queryParts_eq] at this
  simpa using this

/-! ### The path component -/

theorem blank_not_sq {c : UInt8} (h : c ≤ 0x20) : ¬ SqTok c := by
  unfold SqTok StrTok OpenTok CloseTok; grind (splits := 30)

theorem queryText_pass {q lh rh : Bytes} {op : Option Op} (h : QueryText q lh op rh) : SqPass q := by
  have hb : ∀ {w : Bytes}, Blank w → SqPass w := fun h => SqPass.plain (fun c hc => blank_not_sq (h c hc))
  have hl : ∀ {l : Bytes}, QueryLeft l → SqPass l := fun h => (leftText_balanced h.1).pass
  have hr : ∀ {l : Bytes}, QueryRight l → SqPass l := fun h => h.1.pass
  have hop : ∀ {op : Op} {o : Bytes}, op.Written o → SqPass o := by
    intro op o h
    refine SqPass.plain ?_
    cases h with
    | name => cases op <;> decide
    | eqEq => decide
  cases h with
  | compare h1 h2 h3 h4 h5 h6 h7 _ =>
    exact (hb h4).append ((hl h1).append ((hb h5).append ((hop h2).append ((hb h6).append ((hr h3).append (hb h7))))))
  | present h1 _ h2 h3 => exact (hb h2).append ((hl h1).append (hb h3))

/-- The component `#(…)` or `#(…)#`. -/
def queryComp (q : Bytes) (all : Bool) : Bytes := b!"#(" ++ (q ++ (c! ')' :: if all then b!"#" else []))

theorem pNext_query {q : Bytes} (hq : SqPass q) {all : Bool} {sep : UInt8} {rest t : Bytes} (ht : Tail sep rest t) :
    pNext (queryComp q all ++ t) = ⟨queryComp q all, false, false, sep, 0, rest⟩ := by
  generalize hE : queryComp q all ++ t = extra
  have hA0 : At extra 0 (queryComp q all ++ t) := by rw [← hE]; exact At.zero _
  have hA : At extra 0 (c! '#' :: c! '(' :: (q ++ (c! ')' :: ((if all then b!"#" else []) ++ t)))) := by
    have e : queryComp q all ++ t = c! '#' :: c! '(' :: (q ++ (c! ')' :: ((if all then b!"#" else []) ++ t))) := by
      unfold queryComp; simp
    rw [e] at hA0; exact hA0
  have hsq : sq 1 false (q ++ (c! ')' :: ((if all then b!"#" else []) ++ t))) =
      some (q ++ [c! ')'], (if all then b!"#" else []) ++ t) := by
    rw [hq, sq.eq_def]; simp [push1, OpenTok, CloseTok]
  have hscan := scanSquash_at hA.cons
  rw [hsq] at hscan
  simp only at hscan
  obtain ⟨s1, s2⟩ := hscan
  have hlast : (queryComp q all).length ≠ 0 := by unfold queryComp; simp
  have hend : ∀ i, i = (queryComp q all).length → pathNextQueryEnd extra i sep = .ok ⟨queryComp q all, false, false, sep, 0, rest⟩ := by
    rintro i rfl
    have hr : sliceFrom extra (if sep = 0 then (queryComp q all).length else (queryComp q all).length + 1) = .ok rest := by
      have hB := hA0.append
      rw [Nat.zero_add] at hB
      cases t with
      | nil => obtain ⟨rfl, rfl⟩ := ht; rw [if_pos rfl]; exact hB.sliceFrom
      | cons c r =>
        obtain ⟨h1, rfl, rfl⟩ := ht
        rw [if_neg (by unfold IsSep at h1; grind)]; exact hB.cons.sliceFrom
    unfold pathNextQueryEnd
    rw [hr, hA0.slice' (by simp)]
    simp only [ok_bind]
    rw [if_neg hlast]
    have hC : At (queryComp q all) 0 ((b!"#(" ++ q) ++ (c! ')' :: if all then b!"#" else [])) := by
      rw [show (b!"#(" ++ q) ++ (c! ')' :: if all then b!"#" else []) = queryComp q all by unfold queryComp; simp]
      exact At.zero _
    have hD := hC.append
    have hlen := hC.len
    cases all with
    | false =>
      simp only [Bool.false_eq_true, if_false] at hD hlen
      rw [show (queryComp q false).length - 1 = 0 + (b!"#(" ++ q).length by rw [hlen]; simp, hD.idx]
      simp
    | true =>
      simp only [if_true] at hD hlen
      rw [show (queryComp q true).length - 1 = 0 + (b!"#(" ++ q).length + 1 by rw [hlen]; simp, hD.cons.idx,
        show (queryComp q true).length - 2 = 0 + (b!"#(" ++ q).length by rw [hlen]; simp, hD.idx]
      simp only [ok_bind]
      rw [if_pos trivial, if_neg (by rw [hlen]; simp), if_neg (by simp)]
  have hlenC : (queryComp q all).length = 0 + 1 + (c! '(' :: (q ++ [c! ')'])).length + (if all then b!"#" else []).length := by
    unfold queryComp; simp; omega
  have hquery : pathNextQuery extra = .ok ⟨queryComp q all, false, false, sep, 0, rest⟩ := by
    unfold pathNextQuery
    rw [show (1 : Nat) = 0 + 1 from rfl, hA.cons.idx, s1]
    simp only [ok_bind]
    rw [if_neg (by simp)]
    cases all with
    | false =>
      simp only [Bool.false_eq_true, if_false, List.nil_append, List.length_nil, Nat.add_zero] at s2 hlenC hend
      cases t with
      | nil =>
        obtain ⟨rfl, rfl⟩ := ht
        rw [if_neg (by have := s2.nil; omega), hend _ hlenC.symm]
      | cons c r =>
        obtain ⟨h1, rfl, rfl⟩ := ht
        rw [if_pos s2.lt, s2.idx]
        simp only [ok_bind]
        rw [if_neg (by unfold IsSep at h1; grind), if_pos (show sep = c! '.' ∨ sep = c! '|' from h1), hend _ hlenC.symm]
    | true =>
      simp only [if_true, List.cons_append, List.nil_append, List.length_cons, List.length_nil] at s2 hlenC hend
      rw [if_pos (by simpa using s2.lt)]
      have e : idx extra (0 + 1 + (c! '(' :: (q ++ [c! ')'])).length) = .ok c! '#' := by simpa using s2.idx
      rw [e]
      simp only [ok_bind, if_true]
      have s3 := s2.cons
      cases t with
      | nil =>
        obtain ⟨rfl, rfl⟩ := ht
        rw [if_neg (by have := s3.nil; simp at this ⊢; omega), hend _ (by rw [hlenC]; simp)]
      | cons c r =>
        obtain ⟨h1, rfl, rfl⟩ := ht
        have e : idx extra (0 + 1 + (c! '(' :: (q ++ [c! ')'])).length + 1) = .ok sep := by simpa using s3.idx
        rw [if_pos (by simpa using s3.lt), e]
        simp only [ok_bind]
        rw [if_pos (show sep = c! '.' ∨ sep = c! '|' from h1), hend _ (by rw [hlenC]; simp)]
  have hnext : pathNext extra = .ok ⟨queryComp q all, false, false, sep, 0, rest⟩ := by
    rw [← hquery]
    have he : extra = c! '#' :: c! '(' :: (q ++ (c! ')' :: ((if all then b!"#" else []) ++ t))) := by
      have := hA.2; simpa using this
    have hl : extra.length ≠ 1 := by rw [he]; simp
    have h1 : idx extra 1 = .ok c! '(' := hA.cons.idx
    unfold pathNext
    rw [he] at hl h1 ⊢
    simp only
    rw [if_neg (by decide), if_pos trivial, if_neg hl, h1]
    rfl
  have := pathNext_eq extra
  rw [hnext] at this
  simpa using this.symm

/-! ### Matching the elements -/

theorem queryCompare_congr {a b : Value} (h : SameValue a b) (op rh : Bytes) : queryCompare a op rh = queryCompare b op rh := by
  unfold queryCompare
  rw [h.exists, h.kind, h.str, h.f64]

theorem queryMatches_congr {a b : Value} (h : SameValue a b) (op rh : Bytes) : queryMatches a op rh = queryMatches b op rh := by
  have hf : queryCompare a = queryCompare b := by funext op rh; exact queryCompare_congr h op rh
  unfold queryMatches
  rw [h.bool, hf]

/-- The outcome of a query on one element. -/
def ElemTest (lh op rh e : Bytes) (b : Bool) : Prop :=
  ∃ v, (if lh = [] then parse e else get e lh) = .ok v ∧ queryMatches v op rh = .ok b

theorem elemMatches_eq {lh op rh e : Bytes} {b : Bool} {v : Value} (hv : v.exists = true ∧ v.json = v.slice) (he : SameAsText v e)
    (h : ElemTest lh op rh e b) : elemMatches get lh op rh v = .ok b := by
  obtain ⟨w, h1, h2⟩ := h
  unfold elemMatches
  by_cases hl : lh = []
  · rw [if_pos hl] at h1
    rw [if_neg (by simpa using hl)]
    obtain ⟨_, _, x, h3, h4⟩ := he
    rw [h3] at h1; cases h1
    rw [queryMatches_congr h4, h2]
  · rw [if_neg hl] at h1
    rw [if_pos (by simpa using hl)]
    obtain ⟨u, hu1, hu2⟩ := getIn_elem hv he h1
    rw [hu1, ok_bind, queryMatches_congr hu2, h2]

theorem collectR_cons (f : Value → Res (Option Value)) (v : Value) (r : List Value) :
    collectR f (v :: r) = (f v >>= fun o => collectR f r >>= fun l => .ok (o.toList ++ l)) := rfl

/-- The matching elements. -/
theorem collect_kept {lh op rh : Bytes} {test : Bytes → Bool} {f : Value → Res Value} {vals : List Value} {vs : List Bytes}
    (h : Aligned SameAsText vals vs) :
    (∀ e ∈ vs, ElemTest lh op rh e (test e)) → (∀ v ∈ vals, v.exists = true ∧ v.json = v.slice) →
    collectR (fun v => do
      if ← elemMatches get lh op rh v then do .ok (some (← f v)) else .ok none) vals =
    collectR (fun v => do .ok (some (← f v))) ((vals.zip vs).filterMap (fun x => if test x.2 then some x.1 else none)) := by
  induction h with
  | nil => intro _ _; rfl
  | @cons v e vals vs hve _ ih =>
    intro ht hs
    have h1 := elemMatches_eq (hs v (by simp)) hve (ht e (by simp))
    have ih' := ih (fun x hx => ht x (List.mem_cons_of_mem _ hx)) (fun x hx => hs x (List.mem_cons_of_mem _ hx))
    rw [collectR_cons, ih', h1, List.zip_cons_cons, List.filterMap_cons]
    generalize ((vals.zip vs).filterMap (fun x => if test x.2 then some x.1 else none)) = L
    cases htst : test e with
    | false =>
      simp only [Bool.false_eq_true, if_false, ok_bind]
      cases collectR (fun v => do .ok (some (← f v))) L <;> rfl
    | true =>
      simp only [if_true, ok_bind, collectR_cons]

theorem kept_aligned {test : Bytes → Bool} {vals : List Value} {vs : List Bytes} (h : Aligned SameAsText vals vs) :
    Aligned SameAsText ((vals.zip vs).filterMap (fun x => if test x.2 then some x.1 else none)) (vs.filter test) := by
  induction h with
  | nil => exact .nil
  | @cons v e vals vs hve _ ih =>
    rw [List.zip_cons_cons, List.filterMap_cons, List.filter_cons]
    cases htst : test e with
    | false => simpa [htst] using ih
    | true => simpa [htst] using Aligned.cons hve ih

theorem kept_exist {test : Bytes → Bool} {vals : List Value} {vs : List Bytes} {P : Value → Prop} (h : ∀ v ∈ vals, P v) :
    ∀ v ∈ (vals.zip vs).filterMap (fun x => if test x.2 then some x.1 else none), P v := by
  intro v hv
  rw [List.mem_filterMap] at hv
  obtain ⟨x, hx, hx2⟩ := hv
  split at hx2
  · simp at hx2; subst hx2; exact h _ (List.of_mem_zip hx).1
  · simp at hx2

theorem collect_id : ∀ vals : List Value, collectR (fun v => do .ok (some (← (Except.ok v : Res Value)))) vals = .ok vals
  | [] => rfl
  | v :: vals => by unfold collectR; rw [collect_id vals]; rfl

theorem existing_aligned {vals : List Value} {vs : List Bytes} (h : Aligned SameAsText vals vs) :
    (∀ v ∈ vals, v.exists = true ∧ v.json = v.slice) → existing vals = vs := by
  induction h with
  | nil => intro _; rfl
  | @cons v e vals vs hve _ ih =>
    intro hs
    rw [existing_cons, if_pos (hs v (by simp)).1, hve.1, ih (fun x hx => hs x (List.mem_cons_of_mem _ hx))]; rfl

theorem find_kept {lh op rh : Bytes} {test : Bytes → Bool} {vals : List Value} {vs : List Bytes} (h : Aligned SameAsText vals vs) :
    (∀ e ∈ vs, ElemTest lh op rh e (test e)) → (∀ v ∈ vals, v.exists = true ∧ v.json = v.slice) →
    ∃ v, findR (elemMatches get lh op rh) vals = .ok v ∧
      match vs.find? test with | some e => SameAsText v e | none => v = Value.default := by
  induction h with
  | nil => intro _ _; exact ⟨_, rfl, rfl⟩
  | @cons v e vals vs hve _ ih =>
    intro ht hs
    have h1 := elemMatches_eq (hs v (by simp)) hve (ht e (by simp))
    unfold findR
    rw [h1, List.find?_cons]
    cases htst : test e with
    | true => exact ⟨v, rfl, hve⟩
    | false =>
      obtain ⟨u, hu1, hu2⟩ := ih (fun x hx => ht x (List.mem_cons_of_mem _ hx)) (fun x hx => hs x (List.mem_cons_of_mem _ hx))
      refine ⟨u, ?_, hu2⟩
      simp only [ok_bind, Bool.false_eq_true, if_false]
      exact hu1

theorem queryComp_head (q : Bytes) (all : Bool) : ∃ r, queryComp q all = c! '#' :: c! '(' :: r := ⟨_, rfl⟩

theorem query_notMod {q : Bytes} {all : Bool} {p : Path} (h : p.comp = queryComp q all) : p.isModifier = false ∧ p.isMultipath = false := by
  unfold Path.isModifier Path.isMultipath
  rw [h]
  exact ⟨rfl, rfl⟩

theorem linesPrefix_query (q : Bytes) (all : Bool) (t : Bytes) : linesPrefix (queryComp q all ++ t) = (queryComp q all ++ t, false) := rfl

theorem gArrVals_first (rec : GetFn) {path : Path} (vals : List Value) {t : Bytes} (h : path.comp = c! '#' :: t) (ht : t ≠ [])
    (hl : t.getLast? ≠ some c! '#') :
    gArrVals rec path vals = (do
      let v ← findR (elemMatches rec (pParts path).1 (pParts path).2.1 (pParts path).2.2) vals
      .ok (v, path)) := by
  unfold gArrVals
  rw [h]
  simp only
  rw [if_pos trivial, if_neg ht, if_neg hl]

theorem gArrVals_all (rec : GetFn) {path : Path} (vals : List Value) {t : Bytes} (h : path.comp = c! '#' :: t) (ht : t ≠ [])
    (hl : t.getLast? = some c! '#') :
    gArrVals rec path vals = (do
      let l ← collectR (fun v => do
          if ← elemMatches rec (pParts path).1 (pParts path).2.1 (pParts path).2.2 v then
            if path.sep = c! '.' then do .ok (some (← getIn rec v (pGroup path).1)) else .ok (some v)
          else .ok none) vals
      .ok (arrayOf l, (pGroup path).2)) := by
  unfold gArrVals
  rw [h]
  simp only
  rw [if_pos trivial, if_neg ht, if_pos hl]

theorem queryComp_cons (q : Bytes) (all : Bool) :
    ∃ t, queryComp q all = c! '#' :: t ∧ t ≠ [] ∧ t.getLast? = some (if all then c! '#' else c! ')') := by
  refine ⟨c! '(' :: (q ++ (c! ')' :: if all then b!"#" else [])), rfl, by simp, ?_⟩
  rw [← List.cons_append, List.getLast?_append]
  cases all <;> rfl

/-- `#(…)` on a sequence. -/
theorem sequence_first {doc pre : Bytes} {vs : List Bytes} (h : Sequence doc pre vs) {q lh rh : Bytes} {op : Option Op}
    (hq : QueryText q lh op rh) {test : Bytes → Bool} (htest : ∀ e ∈ vs, ElemTest lh (opName op) rh e (test e)) :
    ∃ w, (match vs.find? test with | some e => SameAsText w e | none => w = Value.default) ∧
      ∀ {sep : UInt8} {rest t : Bytes}, Tail sep rest t →
        get doc (pre ++ (queryComp q false ++ t)) = if sep = 0 then .ok w else getIn get w rest := by
  obtain ⟨vals, a1, a2, _, a3⟩ := sequence_get h
  obtain ⟨w, w1, w2⟩ := find_kept a1 htest a2
  refine ⟨w, w2, ?_⟩
  intro sep rest t ht
  have hn := pNext_query (queryText_pass hq) (all := false) ht
  rw [a3 _ (linesPrefix_query _ _ _) (query_notMod (by rw [hn])), hn]
  have hp := parts_eq hq (p := ⟨queryComp q false, false, false, sep, 0, rest⟩) (all := false) rfl
  have hg : gArrVals get ⟨queryComp q false, false, false, sep, 0, rest⟩ vals =
      (do let v ← findR (elemMatches get lh (opName op) rh) vals
          .ok (v, ⟨queryComp q false, false, false, sep, 0, rest⟩)) := by
    obtain ⟨t', e1, e2, e3⟩ := queryComp_cons q false
    rw [gArrVals_first get vals e1 e2 (by rw [e3]; decide), hp]
  rw [hg, w1]
  simp only [ok_bind]
  unfold finish Path.more
  by_cases h0 : sep = 0 <;> simp [h0]

/-- `#(…)#` on a sequence, followed by nothing or a pipe. -/
theorem sequence_all {doc pre : Bytes} {vs : List Bytes} (h : Sequence doc pre vs) {q lh rh : Bytes} {op : Option Op}
    (hq : QueryText q lh op rh) {test : Bytes → Bool} (htest : ∀ e ∈ vs, ElemTest lh (opName op) rh e (test e))
    {sep : UInt8} {rest t : Bytes} (ht : Tail sep rest t) (hs : sep ≠ c! '.') :
    get doc (pre ++ (queryComp q true ++ t)) =
      (let w := mkOwned (arrayText (vs.filter test)) none INFO_ARRAY
       if sep = 0 then .ok w else getIn get w rest) := by
  obtain ⟨vals, a1, a2, _, a3⟩ := sequence_get h
  have hn := pNext_query (queryText_pass hq) (all := true) ht
  rw [a3 _ (linesPrefix_query _ _ _) (query_notMod (by rw [hn])), hn]
  have hp := parts_eq hq (p := ⟨queryComp q true, false, false, sep, 0, rest⟩) (all := true) rfl
  have hc := collect_kept (f := .ok) a1 htest a2
  simp only [ok_bind] at hc
  have hg : gArrVals get ⟨queryComp q true, false, false, sep, 0, rest⟩ vals =
      .ok (mkOwned (arrayText (vs.filter test)) none INFO_ARRAY, ⟨queryComp q true, false, false, sep, 0, rest⟩) := by
    obtain ⟨t', e1, e2, e3⟩ := queryComp_cons q true
    have hid := collect_id ((vals.zip vs).filterMap (fun x => if test x.2 then some x.1 else none))
    simp only [ok_bind] at hid
    rw [gArrVals_all get vals e1 e2 e3, hp, pGroup_no _ hs]
    simp only [if_neg hs]
    rw [hc, hid]
    simp only [ok_bind]
    unfold arrayOf arrayText
    rw [existing_aligned (kept_aligned a1) (kept_exist a2), joinComma_eq]
  rw [hg]
  simp only [ok_bind]
  unfold finish Path.more
  by_cases h0 : sep = 0 <;> simp [h0]

/-- `#(…)#.path` on a sequence, followed by nothing or a pipe. -/
theorem sequence_allMap {doc pre : Bytes} {vs : List Bytes} (h : Sequence doc pre vs) {q lh rh : Bytes} {op : Option Op}
    (hq : QueryText q lh op rh) {test : Bytes → Bool} (htest : ∀ e ∈ vs, ElemTest lh (opName op) rh e (test e))
    {ks : List Bytes} (ho : OrdComps ks) (hne : ks ≠ [])
    {sep : UInt8} {rest t : Bytes} (ht : Tail sep rest t) (hs : sep ≠ c! '.') {ws : List Value}
    (hw : Results (dotPath ks) (vs.filter test) ws) :
    get doc (pre ++ (queryComp q true ++ c! '.' :: (dotPath ks ++ t))) =
      (let w := mkOwned (arrayText (existing ws)) none INFO_ARRAY
       if sep = 0 then .ok w else getIn get w rest) := by
  obtain ⟨vals, a1, a2, _, a3⟩ := sequence_get h
  have hn := pNext_query (queryText_pass hq) (all := true) (sep := c! '.') (rest := dotPath ks ++ t)
    (t := c! '.' :: (dotPath ks ++ t)) ⟨.inl rfl, rfl, rfl⟩
  rw [a3 _ (linesPrefix_query _ _ _) (query_notMod (by rw [hn])), hn]
  have hp := parts_eq hq (p := ⟨queryComp q true, false, false, c! '.', 0, dotPath ks ++ t⟩) (all := true) rfl
  obtain ⟨g1, g2, g3⟩ := pGroup_dot ht hs ho hne (p := ⟨queryComp q true, false, false, c! '.', 0, dotPath ks ++ t⟩) rfl rfl
  have hc := collect_kept (f := fun v => getIn get v (dotPath ks)) a1 htest a2
  obtain ⟨l, l1, l2⟩ := collect_map (kept_aligned (test := test) a1) hw (kept_exist a2)
  have hg : gArrVals get ⟨queryComp q true, false, false, c! '.', 0, dotPath ks ++ t⟩ vals =
      .ok (mkOwned (arrayText (existing ws)) none INFO_ARRAY,
        (pGroup ⟨queryComp q true, false, false, c! '.', 0, dotPath ks ++ t⟩).2) := by
    obtain ⟨t', e1, e2, e3⟩ := queryComp_cons q true
    rw [gArrVals_all get vals e1 e2 e3, hp, g1]
    simp only [if_true]
    rw [hc, l1]
    simp only [ok_bind]
    unfold arrayOf arrayText
    rw [l2, joinComma_eq]
  rw [hg]
  simp only [ok_bind]
  unfold finish Path.more
  simp only [g2, g3]
  by_cases h0 : sep = 0 <;> simp [h0]

/-- Every plain query is decided on every value text. -/
theorem elemTest_total {lh rh e : Bytes} (op : Bytes) (hl : QueryLeft lh) (he : pk e) : ∃ b, ElemTest lh op rh e b := by
  have hp : ¬ AsksPrefix lh := hl.2.2
  unfold ElemTest
  by_cases h0 : lh = []
  · simp only [if_pos h0, parse_eq]
    rcases queryMatches_fine (B := False) (pParse_good e 0) op rh (.inr (pParse_use e 0 he.nu)) with ⟨b, h⟩ | ⟨_, h⟩
    · exact ⟨b, _, rfl, h⟩
    · exact h.elim
  · simp only [if_neg h0]
    rcases get_fine lh e with ⟨v, hv⟩ | ⟨_, hb⟩
    · rcases queryMatches_fine (B := False) (get_prov hv).good op rh (.inr (get_clean (.inr ⟨hp, he⟩) hv).use) with ⟨b, h⟩ | ⟨_, h⟩
      · exact ⟨b, v, hv, h⟩
      · exact h.elim
    · exact absurd hb.asks hp

end Gjson
