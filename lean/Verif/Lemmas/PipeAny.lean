import Verif.Lemmas.Parts
import Verif.Lemmas.Pipe
/-
A pipe after components of any kind.
-/
namespace Gjson
open Spec

/-- A component that looks something up, and is read the same whatever follows. -/
def Steady (k : Bytes) : Prop := ∃ e p, ∀ {sep : UInt8} {rest t : Bytes}, Tail sep rest t → pNext (k ++ t) = ⟨k, e, p, sep, 0, rest⟩

/-- A modifier call or a multipath. -/
inductive CallPart : Bytes → Prop
  | call {n a m : Bytes} : ModCall n a m → CallPart m
  | array {b : Bytes} : Balanced b → CallPart (c! '[' :: (b ++ b!"]"))
  | object {b : Bytes} : Balanced b → CallPart (c! '{' :: (b ++ b!"}"))

theorem part_cases {k : Bytes} (h : Part k) : CallPart k ∨ Steady k ∧ k ≠ [] ∧ ∀ c ∈ k.head?, c ≠ c! '@' ∧ c ≠ c! '{' ∧ c ≠ c! '[' ∧ c ≠ c! '.' := by
  cases h with
  | selector h =>
    obtain ⟨⟨e, p, hc⟩, hf, hne⟩ := Selector.ord h
    refine .inr ⟨⟨e, p, fun ht => pNext_comp hc hf ht⟩, hne, ?_⟩
    intro c hc'
    obtain ⟨a, r, rfl⟩ := List.exists_cons_of_ne_nil hne
    simp at hc'; subst hc'
    unfold PlainFirst at hf
    refine ⟨hf.1, hf.2.2.1, hf.2.2.2, ?_⟩
    cases hc with
    | esc => decide
    | wild h => rcases h with rfl | rfl <;> decide
    | plain h => intro hcc; subst hcc; exact h (by unfold Special IsSep; decide)
  | hash => exact .inr ⟨⟨false, false, fun ht => pNext_hashTail ht⟩, by simp, by simp⟩
  | first h => exact .inr ⟨⟨false, false, fun ht => pNext_query (queryText_pass h) (all := false) ht⟩, by simp, by simp⟩
  | all h => exact .inr ⟨⟨false, false, fun ht => pNext_query (queryText_pass h) (all := true) ht⟩, by simp, by simp⟩
  | call h => exact .inl (.call h)
  | array h => exact .inl (.array h)
  | object h => exact .inl (.object h)

/-- Paths that differ by the pipe at the end. -/
def PathTwin (b : Bytes) (n : Nat) (p q : Path) : Prop :=
  (p.sep = c! '|' ∧ p.extra = b ∧ q.sep = 0) ∨
  ∃ ms, ms ≠ [] ∧ ms.length ≤ n ∧ (∀ m ∈ ms, Part m) ∧ p.sep = c! '.' ∧ q.sep = c! '.' ∧
    p.extra = dotPath ms ++ c! '|' :: b ∧ q.extra = dotPath ms

def Twin2 (b : Bytes) (n : Nat) (x y : Value × Path) : Prop := x.1 = y.1 ∧ PathTwin b n x.2 y.2

theorem Twin2.mono {b : Bytes} {n m : Nat} {x y : Value × Path} (h : Twin2 b n x y) (hnm : n ≤ m) : Twin2 b m x y := by
  refine ⟨h.1, ?_⟩
  rcases h.2 with h | ⟨ms, h1, h2, h3⟩
  · exact .inl h
  · exact .inr ⟨ms, h1, by omega, h3⟩

theorem relRes_same_bind {α γ δ : Type} {S : γ → δ → Prop} {a : Res α} {f : α → Res γ} {g : α → Res δ}
    (h : ∀ x, RelRes S (f x) (g x)) : RelRes S (a >>= f) (a >>= g) := by
  cases a with
  | error e => exact .error e
  | ok x => exact h x

theorem gArrVals_twin {b : Bytes} {n : Nat} {p q : Path} (hc : p.comp = q.comp) (h : PathTwin b n p q) (vals : List Value) :
    RelRes (Twin2 b n) (gArrVals get p vals) (gArrVals get q vals) := by
  have hparts : pParts p = pParts q := by unfold pParts Path.queryParts; rw [hc]
  have hself : ∀ v, Twin2 b n (v, p) (v, q) := fun v => ⟨rfl, h⟩
  have hgroup : (p.sep = c! '.' ↔ q.sep = c! '.') ∧ (p.sep = c! '.' → (pGroup p).1 = (pGroup q).1) ∧
      PathTwin b n (pGroup p).2 (pGroup q).2 := by
    rcases h with ⟨h1, h2, h3⟩ | ⟨ms, h1, h2, h3, h4, h5, h6, h7⟩
    · have e1 : p.sep ≠ c! '.' := by rw [h1]; decide
      have e2 : q.sep ≠ c! '.' := by rw [h3]; decide
      refine ⟨by simp [e1, e2], fun h => absurd h e1, ?_⟩
      rw [pGroup_no p e1, pGroup_no q e2]
      exact .inl ⟨h1, h2, h3⟩
    · obtain ⟨a1, a2, a3⟩ := pGroup_whole (sep := c! '|') (rest := b) (t := c! '|' :: b) ⟨.inr rfl, rfl, rfl⟩ (by decide)
        (fun x hx => whole_part (h3 x hx)) h1 h4 h6
      obtain ⟨b1, b2, _⟩ := pGroup_whole (sep := 0) (rest := []) (t := []) ⟨rfl, rfl⟩ (by decide)
        (fun x hx => whole_part (h3 x hx)) h1 h5 (by rw [h7, List.append_nil])
      exact ⟨by simp [h4, h5], fun _ => a1.trans b1.symm, .inl ⟨a2, a3, b2⟩⟩
  obtain ⟨g1, g2, g3⟩ := hgroup
  unfold gArrVals
  simp only [hparts, ← hc]
  split
  · exact .ok (hself _)
  split
  · split
    · by_cases hs : p.sep = c! '.'
      · rw [if_pos hs, if_pos (g1.1 hs), g2 hs]
        exact relRes_same_bind fun l => .ok ⟨rfl, g3⟩
      · rw [if_neg hs, if_neg (fun h => hs (g1.2 h))]
        exact .ok (hself _)
    split
    · by_cases hs : p.sep = c! '.'
      · simp only [if_pos hs, if_pos (g1.1 hs), g2 hs]
        exact relRes_same_bind fun l => .ok ⟨rfl, g3⟩
      · simp only [if_neg hs, if_neg (fun h => hs (g1.2 h))]
        exact relRes_same_bind fun l => .ok ⟨rfl, g3⟩
    · exact relRes_same_bind fun l => .ok (hself _)
  · exact .ok (hself _)

theorem dotPath_tail (k k' : Bytes) (ks : List Bytes) (t : Bytes) :
    dotPath (k :: k' :: ks) ++ t = k ++ c! '.' :: (dotPath (k' :: ks) ++ t) := by simp [dotPath]

/-- The first component of both paths. -/
theorem steady_next {k : Bytes} {ks : List Bytes} (b : Bytes) (h : Steady k) (ho : ∀ m ∈ ks, Part m) :
    ∃ e p s1 r1 s2 r2, pNext (dotPath (k :: ks) ++ c! '|' :: b) = ⟨k, e, p, s1, 0, r1⟩ ∧ pNext (dotPath (k :: ks)) = ⟨k, e, p, s2, 0, r2⟩ ∧
      PathTwin b ks.length ⟨k, e, p, s1, 0, r1⟩ ⟨k, e, p, s2, 0, r2⟩ ∧
      Path.dives ⟨k, e, p, s1, 0, r1⟩ = Path.dives ⟨k, e, p, s2, 0, r2⟩ ∧
      (Path.dives ⟨k, e, p, s1, 0, r1⟩ = true → ks ≠ [] ∧ r1 = dotPath ks ++ c! '|' :: b ∧ r2 = dotPath ks) := by
  obtain ⟨e, p, h⟩ := h
  cases ks with
  | nil =>
    refine ⟨e, p, c! '|', b, 0, [], h ⟨.inr rfl, rfl, rfl⟩, ?_, .inl ⟨rfl, rfl, rfl⟩, ?_, ?_⟩
    · have := h (sep := 0) (rest := []) (t := []) ⟨rfl, rfl⟩
      rw [List.append_nil] at this
      exact this
    · unfold Path.dives; simp
    · intro hd; unfold Path.dives at hd; revert hd; simp
  | cons k' ks =>
    refine ⟨e, p, c! '.', dotPath (k' :: ks) ++ c! '|' :: b, c! '.', dotPath (k' :: ks), ?_, ?_,
      .inr ⟨k' :: ks, by simp, by simp, ho, rfl, rfl, rfl, rfl⟩, ?_, fun _ => ⟨by simp, rfl, rfl⟩⟩
    · rw [dotPath_tail]; exact h ⟨.inl rfl, rfl, rfl⟩
    · exact h ⟨.inl rfl, rfl, rfl⟩
    · have hw : WholePart k' := whole_part (ho k' (by simp))
      have c1 := (whole_next (ks := ks) hw (sep := c! '|') (rest := b) (t := c! '|' :: b) ⟨.inr rfl, rfl, rfl⟩).1
      have c2 := (whole_next (ks := ks) hw (sep := 0) (rest := []) (t := []) ⟨rfl, rfl⟩).1
      rw [List.append_nil] at c2
      unfold Path.dives Path.isModifier Path.isMultipath
      simp only [c1, c2]

theorem gCont_twin2 (b : Bytes) (L : Nat) {ks : List Bytes} : ∀ {k : Bytes}, Steady k → (∀ m ∈ ks, Part m) → ∀ s,
    RelRes (Twin2 b ks.length) (gCont get L (pNext (dotPath (k :: ks) ++ c! '|' :: b)) s) (gCont get L (pNext (dotPath (k :: ks))) s) := by
  induction ks with
  | nil =>
    intro k hk ho s
    obtain ⟨e, p, s1, r1, s2, r2, e1, e2, ht, hdd, hnext⟩ := steady_next b hk ho
    rw [e1, e2]
    unfold gCont
    split
    · rename_i hs
      cases s with
      | nil => simp at hs
      | cons c r =>
        simp at hs
        subst hs
        rw [gObj_cons, gObj_cons]
        refine gObjLoop_rel (R := Twin2 b 0) (p1 := ⟨k, e, p, s1, 0, r1⟩) (p2 := ⟨k, e, p, s2, 0, r2⟩) L
          (fun s => rfl) hdd (fun v => ⟨rfl, ht⟩) (fun x y h => h.1) ?_ r
        intro hd
        exact absurd rfl (hnext hd).1
    · unfold gArr
      exact gArrVals_twin (p := ⟨k, e, p, s1, 0, r1⟩) (q := ⟨k, e, p, s2, 0, r2⟩) rfl ht _
  | cons k' ks ih =>
    intro k hk ho s
    obtain ⟨e, p, s1, r1, s2, r2, e1, e2, ht, hdd, hnext⟩ := steady_next b hk ho
    rw [e1, e2]
    unfold gCont
    split
    · rename_i hs
      cases s with
      | nil => simp at hs
      | cons c r =>
        simp at hs
        subst hs
        rw [gObj_cons, gObj_cons]
        refine gObjLoop_rel (R := Twin2 b (k' :: ks).length) (p1 := ⟨k, e, p, s1, 0, r1⟩) (p2 := ⟨k, e, p, s2, 0, r2⟩) L
          (fun s => rfl) hdd (fun v => ⟨rfl, ht⟩) (fun x y h => h.1) ?_ r
        intro hd s
        obtain ⟨_, rfl, rfl⟩ := hnext hd
        rw [if_pos hd, if_pos (by rw [← hdd]; exact hd)]
        have hk' : Steady k' := by
          rcases part_cases (ho k' (by simp)) with h | h
          · exfalso
            have hw : WholePart k' := whole_part (ho k' (by simp))
            have c1 := (whole_next (ks := ks) hw (sep := c! '|') (rest := b) (t := c! '|' :: b) ⟨.inr rfl, rfl, rfl⟩).1
            have : ∃ c r, k' = c :: r ∧ (c = c! '@' ∨ c = c! '{' ∨ c = c! '[') := by
              cases h with
              | call h => obtain ⟨q, hq⟩ : ∃ q, k' = c! '@' :: q := by cases h <;> exact ⟨_, rfl⟩
                          exact ⟨_, _, hq, .inl rfl⟩
              | array h => exact ⟨_, _, rfl, .inr (.inr rfl)⟩
              | object h => exact ⟨_, _, rfl, .inr (.inl rfl)⟩
            obtain ⟨c, r, rfl, hc⟩ := this
            unfold Path.dives Path.isModifier Path.isMultipath at hd
            simp only [c1] at hd
            revert hd
            rcases hc with rfl | rfl | rfl <;> simp
          · exact h.1
        exact (ih hk' (fun m hm => ho m (List.mem_cons_of_mem _ hm)) s).mono fun x y h => h.mono (by simp)
    · unfold gArr
      exact gArrVals_twin (p := ⟨k, e, p, s1, 0, r1⟩) (q := ⟨k, e, p, s2, 0, r2⟩) rfl ht _

theorem gStart_twin2 (b : Bytes) (L : Nat) {k : Bytes} {ks : List Bytes} (hk : Steady k) (ho : ∀ m ∈ ks, Part m) : ∀ s,
    RelRes (Twin2 b ks.length) (gStart get L (pNext (dotPath (k :: ks) ++ c! '|' :: b)) s) (gStart get L (pNext (dotPath (k :: ks))) s)
  | [] => by
    obtain ⟨e, p, s1, r1, s2, r2, e1, e2, ht, _⟩ := steady_next b hk ho
    rw [e1, e2]; exact .ok ⟨rfl, ht⟩
  | c :: r => by
    unfold gStart
    split
    · exact gStart_twin2 b L hk ho r
    have := gCont_twin2 b L hk ho (c :: r)
    unfold gCont at this
    split
    · rename_i hc
      rw [if_pos (by simp [hc]), if_pos (by simp [hc])] at this
      exact this
    split
    · rename_i hc _
      rw [if_neg (by simpa using hc), if_neg (by simpa using hc)] at this
      exact this
    · obtain ⟨e, p, s1, r1, s2, r2, e1, e2, ht, _⟩ := steady_next b hk ho
      rw [e1, e2]; exact .ok ⟨rfl, ht⟩

/-- After a modifier call or multipath everything is a second lookup. -/
theorem call_rest {m : Bytes} (h : CallPart m) {sep : UInt8} (hs : sep = c! '.' ∨ sep = c! '|') (json rest : Bytes) :
    get json (m ++ sep :: rest) = (get json m >>= fun v => getIn get v rest) := by
  have h0 : sep ≠ 0 := by grind
  have multi : ∀ {o c : UInt8} {bd : Bytes}, (o = c! '[' ∧ c = c! ']' ∨ o = c! '{' ∧ c = c! '}') → Balanced bd →
      get json (o :: (bd ++ [c]) ++ sep :: rest) = (get json (o :: (bd ++ [c])) >>= fun v => getIn get v rest) := by
    intro o c bd hoc hb
    have ho : o = c! '[' ∨ o = c! '{' := by grind
    have hc : CloseTok c := by unfold CloseTok; grind
    have h1 := get_multi ho hc hb (sep := 0) (rest := []) (t := []) ⟨rfl, rfl⟩ json
    rw [List.append_nil] at h1
    rw [h1, get_multi ho hc hb (sep := sep) (rest := rest) (t := sep :: rest) ⟨hs, rfl, rfl⟩]
    have hun : unclosed (o :: (bd ++ [c])) c = .ok false := by
      unfold unclosed
      have hi : idx (o :: (bd ++ [c])) ((o :: (bd ++ [c])).length - 1) = .ok c := by simp [idx]
      rw [if_neg (by simp), hi]
      simp
    unfold multiExec
    simp only
    have hi : idx (o :: (bd ++ [c])) 0 = .ok o := rfl
    rw [hi]
    simp only [ok_bind]
    rcases hoc with ⟨rfl, rfl⟩ | ⟨rfl, rfl⟩
    · simp only [if_true]
      unfold execArr
      simp only [hun, ok_bind, Bool.false_eq_true, if_false]
      generalize eachComp _ _ _ = E
      cases E with
      | error e => rfl
      | ok x =>
        obtain ⟨out, k⟩ := x
        simp only [ok_bind]
        generalize jsonFromOwned _ _ _ = J
        cases J with
        | error e => rfl
        | ok v => simp [Path.more, h0]
    · simp only [show ¬ ((0x7b : UInt8) = 0x5b) by decide, if_false]
      unfold execObj
      simp only [hun, ok_bind, Bool.false_eq_true, if_false]
      generalize eachComp _ _ _ = E
      cases E with
      | error e => rfl
      | ok x =>
        obtain ⟨out, k⟩ := x
        simp only [ok_bind]
        generalize jsonFromOwned _ _ _ = J
        cases J with
        | error e => rfl
        | ok v => simp [Path.more, h0]
  cases h with
  | call h =>
    have h1 := get_mod h (t := []) (sep := 0) (rest := []) ⟨rfl, rfl⟩ json
    rw [List.append_nil] at h1
    rw [h1, get_mod h (t := sep :: rest) (sep := sep) (rest := rest) ⟨hs, rfl, rfl⟩ json]
    cases modApply get _ json _ with
    | error e => rfl
    | ok out => simp only [ok_bind, if_true, if_neg h0]
  | array h => exact multi (.inl ⟨rfl, rfl⟩) h
  | object h => exact multi (.inr ⟨rfl, rfl⟩) h

theorem looksUp_steady {k : Bytes} (ks : List Bytes) (t : Bytes) (hne : k ≠ [])
    (hc : ∀ c ∈ k.head?, c ≠ c! '@' ∧ c ≠ c! '{' ∧ c ≠ c! '[' ∧ c ≠ c! '.') : LooksUp (dotPath (k :: ks) ++ t) := by
  obtain ⟨c, r, rfl⟩ := List.exists_cons_of_ne_nil hne
  have hc := hc c (by simp)
  have : ∃ r', dotPath ((c :: r) :: ks) ++ t = c :: r' := by cases ks <;> exact ⟨_, rfl⟩
  obtain ⟨r', hr'⟩ := this
  rw [hr']
  refine looksUp_of (fun d hd => ?_) ?_
  · simp at hd; subst hd; exact ⟨hc.1, hc.2.1, hc.2.2.1⟩
  · rintro ⟨u, hu⟩
    simp only [List.cons_append, List.cons.injEq] at hu
    exact hc.2.2.2 hu.1.symm

/-- Going on after the first step, alike on both sides. -/
theorem twin_finish {b : Bytes} {n : Nat} {A B : Res (Value × Path)} (h : RelRes (Twin2 b n) A B)
    (hone : ∀ x, A = .ok x → OneText x.1)
    (ih : ∀ {ms : List Bytes}, ms.length ≤ n → (∀ m ∈ ms, Part m) → ms ≠ [] → ∀ json,
      SameRes (get json (dotPath ms ++ c! '|' :: b)) (get json (dotPath ms) >>= fun v => v.get b)) :
    SameRes (A >>= finish) ((B >>= finish) >>= fun v => v.get b) := by
  cases h with
  | error e => exact .error e
  | @ok x y h =>
    obtain ⟨h1, h2⟩ := h
    obtain ⟨v, p⟩ := x
    obtain ⟨v', q⟩ := y
    simp only at h1 h2
    subst h1
    have hone := hone _ rfl
    simp only at hone
    simp only [ok_bind]
    rcases h2 with ⟨a1, a2, a3⟩ | ⟨ms, a1, a2, a3, a4, a5, a6, a7⟩
    · have f1 : finish (v, p) = getIn get v b := by unfold finish Path.more; rw [a1, a2]; rfl
      have f2 : finish (v, q) = .ok v := by unfold finish Path.more; rw [a3]; rfl
      rw [f1, f2]
      exact .refl _
    · have f1 : finish (v, p) = getIn get v (dotPath ms ++ c! '|' :: b) := by unfold finish Path.more; rw [a4, a6]; rfl
      have f2 : finish (v, q) = getIn get v (dotPath ms) := by unfold finish Path.more; rw [a5, a7]; rfl
      rw [f1, f2]
      refine (getIn_same hone _).trans ((ih a2 a3 a1 v.json).trans ?_)
      exact bind_get_congr (fun w h => (get_prov h).oneText) (fun w h => (valueGet_prov h).oneText) (getIn_same hone _).symm b

/-- A pipe after components of any kind. -/
theorem get_piped_any (b : Bytes) {n : Nat} : ∀ {ks : List Bytes}, ks.length ≤ n → (∀ k ∈ ks, Part k) → ks ≠ [] → ∀ json,
    SameRes (get json (dotPath ks ++ c! '|' :: b)) (get json (dotPath ks) >>= fun v => v.get b) := by
  induction n with
  | zero => intro ks hn _ hne; cases ks <;> simp at hn hne
  | succ n ih =>
    intro ks hn ho hne json
    obtain ⟨k, ks, rfl⟩ := List.exists_cons_of_ne_nil hne
    have hot : ∀ m ∈ ks, Part m := fun m hm => ho m (List.mem_cons_of_mem _ hm)
    have hlen : ks.length ≤ n := by simp at hn; omega
    rcases part_cases (ho k (by simp)) with hc | ⟨hs, hke, hh⟩
    · cases ks with
      | nil =>
        rw [show dotPath [k] = k from rfl, call_rest hc (.inr rfl)]
        exact .refl _
      | cons k' ks =>
        rw [dotPath_tail, show dotPath (k :: k' :: ks) = k ++ c! '.' :: dotPath (k' :: ks) from rfl,
          call_rest hc (.inl rfl), call_rest hc (.inl rfl)]
        cases hk : get json k with
        | error e => exact .error e
        | ok v =>
          simp only [ok_bind]
          have hone := (get_prov hk).oneText
          refine (getIn_same hone _).trans ((ih hlen hot (by simp) v.json).trans ?_)
          exact bind_get_congr (fun w h => (get_prov h).oneText) (fun w h => (valueGet_prov h).oneText) (getIn_same hone _).symm b
    · have l1 := looksUp_steady ks (c! '|' :: b) hke hh
      have l2 := looksUp_steady ks [] hke hh
      rw [List.append_nil] at l2
      rw [get_looksUp l1, get_looksUp l2]
      refine twin_finish ((gStart_twin2 b json.length hs hot json).mono fun x y h => h.mono hlen)
        (fun x hx => (gStart_prov hx).oneText) ih

theorem get_lines (json path : Bytes) : get json (b!".." ++ path) = (gArr get json.length true (pNext path) json >>= finish) := by
  have hlp : linesPrefix (b!".." ++ path) = (path, true) := rfl
  rw [get_eq, getBody, getFirst_eq, hlp]
  simp only [if_true]
  cases gArr get json.length true (pNext path) json <;> rfl

/-- The same with the JSON Lines prefix. -/
theorem get_piped_lines (b : Bytes) {ks : List Bytes} (ho : ∀ k ∈ ks, Part k) (hne : ks ≠ []) (json : Bytes) :
    SameRes (get json (b!".." ++ (dotPath ks ++ c! '|' :: b))) (get json (b!".." ++ dotPath ks) >>= fun v => v.get b) := by
  obtain ⟨k, ks, rfl⟩ := List.exists_cons_of_ne_nil hne
  have hot : ∀ m ∈ ks, Part m := fun m hm => ho m (List.mem_cons_of_mem _ hm)
  have hw : WholePart k := whole_part (ho k (by simp))
  obtain ⟨a1, a2, a3⟩ := whole_next (ks := ks) hw (sep := c! '|') (rest := b) (t := c! '|' :: b) ⟨.inr rfl, rfl, rfl⟩
  obtain ⟨b1, b2, b3⟩ := whole_next (ks := ks) hw (sep := 0) (rest := []) (t := []) ⟨rfl, rfl⟩
  rw [List.append_nil] at b1 b2 b3
  rw [get_lines, get_lines]
  refine twin_finish (n := ks.length) ?_ (fun x hx => (gArr_prov hx).oneText) (fun h1 h2 h3 json => get_piped_any b (Nat.le_refl _) h2 h3 json)
  unfold gArr
  refine gArrVals_twin (a1.trans b1.symm) ?_ _
  by_cases hks : ks = []
  · exact .inl ⟨(a2 hks).1, (a2 hks).2, (b2 hks).1⟩
  · exact .inr ⟨ks, hks, Nat.le_refl _, hot, (a3 hks).1, (b3 hks).1, (a3 hks).2, by rw [(b3 hks).2, List.append_nil]⟩

end Gjson
