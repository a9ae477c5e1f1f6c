import Verif.SpecEntries
import Verif.Lemmas.Multi
import Verif.Lemmas.GroupCut
/-
`each_comp` by the rules of `EntriesOf`.
-/
namespace Gjson
open Spec

section
variable {σ : Type} {path : Bytes} (f : σ → Bytes → Bytes → Res σ)

theorem each_plain {c : UInt8} (h1 : c ∉ b!"\\([{") (h2 : c ∉ b!",:")
    {n i : Nat} {x : Option Nat} {s : Nat} {st : σ} {r : Bytes} (h : At path i (c :: r)) :
    eachCompLoop path f (n + 1) i x s st = eachCompLoop path f n (i + 1) x s st := by
  simp only [List.mem_cons, List.not_mem_nil, or_false, not_or] at h1 h2
  rw [eachCompLoop, if_neg h.ne, h.idx]
  simp only [ok_bind]
  rw [if_neg h1.1, if_neg (by rintro (e | e | e) <;> simp_all), if_neg h2.1, if_neg h2.2]

theorem each_colon {n i : Nat} {x : Option Nat} {s : Nat} {st : σ} {r : Bytes} (h : At path i (c! ':' :: r)) :
    eachCompLoop path f (n + 1) i x s st = eachCompLoop path f n (i + 1) (some i) s st := by
  rw [eachCompLoop, if_neg h.ne, h.idx]
  simp only [ok_bind]
  rw [if_neg (by decide), if_neg (by decide), if_neg (by decide), if_pos trivial]

theorem each_pieces {p : Bytes} (hp : Pieces b!",:" p) : ∀ (n i : Nat) (x : Option Nat) (s : Nat) (st : σ) (r : Bytes),
    At path i (p ++ r) → (p ++ r).length < n →
    ∃ n', r.length < n' ∧ eachCompLoop path f n i x s st = eachCompLoop path f n' (i + p.length) x s st := by
  induction hp with
  | nil => intro n i x s st r h hn; exact ⟨n, by simpa using hn, rfl⟩
  | @esc e q _ ih =>
    intro n i x s st r h hn
    obtain ⟨n, rfl⟩ : ∃ m, n = m + 1 := ⟨n - 1, by omega⟩
    rw [List.cons_append, List.cons_append] at h hn
    obtain ⟨n', a, b⟩ := ih n (i + 2) x s st r h.cons.cons (by simp at hn ⊢; omega)
    refine ⟨n', a, ?_⟩
    rw [comp_skip_esc f h, b]
    congr 1; simp; omega
  | @group g q hg _ ih =>
    intro n i x s st r h hn
    obtain ⟨o, b, c, ho, hc, hb, rfl⟩ := hg
    have e : o :: (b ++ [c]) ++ q ++ r = o :: (b ++ c :: (q ++ r)) := by simp
    rw [e] at h hn
    obtain ⟨n, rfl⟩ : ∃ m, n = m + 1 := ⟨n - 1, by omega⟩
    obtain ⟨n', a, b'⟩ := ih n (i + (b.length + 2)) x s st r
      (At.append' (t := o :: (b ++ [c])) (by simpa using h) (by simp)) (by simp at hn ⊢; omega)
    refine ⟨n', a, ?_⟩
    rw [comp_skip_group f ho hc hb h, b']
    congr 1; simp; omega
  | @plain c q h1 h2 _ ih =>
    intro n i x s st r h hn
    obtain ⟨n, rfl⟩ : ∃ m, n = m + 1 := ⟨n - 1, by omega⟩
    rw [List.cons_append] at h hn
    obtain ⟨n', a, b⟩ := ih n (i + 1) x s st r h.cons (by simp at hn ⊢; omega)
    refine ⟨n', a, ?_⟩
    rw [each_plain f h1 h2 h, b]
    congr 1; simp; omega

theorem each_name {p : Bytes} (hp : Pieces b!"," p) : ∀ (n i : Nat) (x : Option Nat) (s : Nat) (st : σ) (r : Bytes),
    At path i (p ++ r) → (p ++ r).length < n →
    ∃ n' x', r.length < n' ∧ eachCompLoop path f n i x s st = eachCompLoop path f n' (i + p.length) x' s st := by
  induction hp with
  | nil => intro n i x s st r h hn; exact ⟨n, x, by simpa using hn, rfl⟩
  | @esc e q _ ih =>
    intro n i x s st r h hn
    obtain ⟨n, rfl⟩ : ∃ m, n = m + 1 := ⟨n - 1, by omega⟩
    rw [List.cons_append, List.cons_append] at h hn
    obtain ⟨n', x', a, b⟩ := ih n (i + 2) x s st r h.cons.cons (by simp at hn ⊢; omega)
    refine ⟨n', x', a, ?_⟩
    rw [comp_skip_esc f h, b]
    congr 1; simp; omega
  | @group g q hg _ ih =>
    intro n i x s st r h hn
    obtain ⟨o, b, c, ho, hc, hb, rfl⟩ := hg
    have e : o :: (b ++ [c]) ++ q ++ r = o :: (b ++ c :: (q ++ r)) := by simp
    rw [e] at h hn
    obtain ⟨n, rfl⟩ : ∃ m, n = m + 1 := ⟨n - 1, by omega⟩
    obtain ⟨n', x', a, b'⟩ := ih n (i + (b.length + 2)) x s st r
      (At.append' (t := o :: (b ++ [c])) (by simpa using h) (by simp)) (by simp at hn ⊢; omega)
    refine ⟨n', x', a, ?_⟩
    rw [comp_skip_group f ho hc hb h, b']
    congr 1; simp; omega
  | @plain c q h1 h2 _ ih =>
    intro n i x s st r h hn
    obtain ⟨n, rfl⟩ : ∃ m, n = m + 1 := ⟨n - 1, by omega⟩
    rw [List.cons_append] at h hn
    by_cases h3 : c = c! ':'
    · subst h3
      obtain ⟨n', x', a, b⟩ := ih n (i + 1) (some i) s st r h.cons (by simp at hn ⊢; omega)
      refine ⟨n', x', a, ?_⟩
      rw [each_colon f h, b]
      congr 1; simp; omega
    · obtain ⟨n', x', a, b⟩ := ih n (i + 1) x s st r h.cons (by simp at hn ⊢; omega)
      refine ⟨n', x', a, ?_⟩
      rw [each_plain f h1 (by simp at h2 ⊢; exact ⟨h2, h3⟩) h, b]
      congr 1; simp; omega

/-- At the end of the text. -/
theorem each_ending {p : Bytes} (hp : Ending b!",:" p) (n i : Nat) (x : Option Nat) (s : Nat) (st : σ)
    (h : At path i p) (hn : p.length < n) :
    eachCompLoop path f n i x s st = (compAt path s (i + p.length) x >>= fun e => f st e.1 e.2) := by
  cases hp with
  | closed hp =>
    have h' : At path i (p ++ []) := by simpa using h
    obtain ⟨n', a, b⟩ := each_pieces f hp n i x s st [] h' (by simpa using hn)
    obtain ⟨n', rfl⟩ : ∃ m, n' = m + 1 := ⟨n' - 1, by omega⟩
    rw [b, eachCompLoop, if_pos h'.append.nil]
  | @opened q r o hp ho hc =>
    obtain ⟨n', a, b⟩ := each_pieces f hp n i x s st (o :: r) h hn
    obtain ⟨n', rfl⟩ : ∃ m, n' = m + 1 := ⟨n' - 1, by omega⟩
    have h1 := h.append
    have h2 := scanSquash_at h1
    rw [sq_never hc ho] at h2
    simp only at h2
    obtain ⟨n', rfl⟩ : ∃ m, n' = m + 1 := ⟨n' - 1, by simp at a; omega⟩
    have hl : path.length = i + (q ++ o :: r).length := by
      have := h.len; omega
    simp only [List.mem_cons, List.not_mem_nil, or_false] at ho
    rw [b, eachCompLoop, if_neg h1.ne, h1.idx]
    simp only [ok_bind]
    rw [if_neg (by rcases ho with rfl | rfl | rfl <;> decide), if_pos ho, h2]
    simp only [ok_bind]
    rw [eachCompLoop, if_pos rfl, hl]

theorem keyFor_eval {p k : Bytes} (h : KeyFor p k) : keyForPath p = .ok k := by
  cases h with
  | last h1 h2 => exact keyForPath_last h1 h2
  | other h1 h2 => exact keyForPath_other h1 h2

theorem keyFor_exists (p : Bytes) : ∃ k, KeyFor p k := by
  obtain ⟨k, hk⟩ := lastName_exists p
  by_cases hs : SimpleName k
  · exact ⟨k, .last hk hs⟩
  · exact ⟨_, .other hk hs⟩

theorem compAt_plain {p k r : Bytes} {i : Nat} (h : At path i (p ++ r)) (hk : KeyFor p k) :
    compAt path i (i + p.length) none = .ok (k, p) := by
  unfold compAt
  simp only
  rw [h.slice]
  simp only [ok_bind]
  rw [keyFor_eval hk]; rfl

theorem compAt_named {k p r : Bytes} {i : Nat} (h : At path i (k ++ c! ':' :: (p ++ r))) :
    compAt path i (i + k.length + 1 + p.length) (some (i + k.length)) = .ok (k, p) := by
  unfold compAt
  simp only
  rw [h.slice]
  simp only [ok_bind]
  rw [h.append.cons.slice' (by omega)]
  rfl

theorem each_comma {n i : Nat} {x : Option Nat} {s : Nat} {st : σ} {r : Bytes} {e : Bytes × Bytes} (h : At path i (c! ',' :: r))
    (he : compAt path s i x = .ok e) :
    eachCompLoop path f (n + 1) i x s st = (f st e.1 e.2 >>= fun st => eachCompLoop path f n (i + 1) none (i + 1) st) := by
  rw [eachCompLoop, if_neg h.ne, h.idx]
  simp only [ok_bind]
  rw [if_neg (by decide), if_neg (by decide), if_pos trivial, he]
  rfl

theorem foldlM_one (st : σ) (e : Bytes × Bytes) : [e].foldlM (fun st e => f st e.1 e.2) st = f st e.1 e.2 := by
  simp only [List.foldlM_cons, List.foldlM_nil]
  cases f st e.1 e.2 <;> rfl

/-- `each_comp` calls its function on each entry in turn. -/
theorem each_entries {s : Bytes} {es : List (Bytes × Bytes)} (h : EntriesOf s es) : ∀ (n i : Nat) (st : σ),
    At path i s → s.length < n →
    eachCompLoop path f n i none i st = es.foldlM (fun st e => f st e.1 e.2) st := by
  induction h with
  | @last p k hp hk =>
    intro n i st ha hn
    rw [each_ending f hp n i none i st ha hn, compAt_plain (r := []) (by simpa using ha) hk, foldlM_one]
    rfl
  | @lastNamed k p hk hp =>
    intro n i st ha hn
    obtain ⟨n1, x, a1, b1⟩ := each_name f hk n i none i st _ ha hn
    obtain ⟨n1, rfl⟩ : ∃ m, n1 = m + 1 := ⟨n1 - 1, by omega⟩
    have h1 := ha.append
    rw [b1, each_colon f h1, each_ending f hp n1 _ _ _ _ h1.cons (by simp at a1 ⊢; omega),
      compAt_named (r := []) (by simpa using ha), foldlM_one]
    rfl
  | @lost p hp =>
    intro n i st ha hn
    obtain ⟨n1, x, a1, b1⟩ := each_name f hp n i none i st _ ha hn
    obtain ⟨n1, rfl⟩ : ∃ m, n1 = m + 1 := ⟨n1 - 1, by omega⟩
    have h1 := ha.append
    rw [b1, eachCompLoop, if_neg h1.ne, h1.idx]
    simp only [ok_bind]
    rw [if_pos trivial, if_pos h1.cons.nil]
    rfl
  | @more p k r es hp hk _ ih =>
    intro n i st ha hn
    obtain ⟨n1, a1, b1⟩ := each_pieces f hp n i none i st _ ha hn
    obtain ⟨n1, rfl⟩ : ∃ m, n1 = m + 1 := ⟨n1 - 1, by omega⟩
    have h1 := ha.append
    rw [b1, each_comma f h1 (compAt_plain ha hk), List.foldlM_cons]
    cases f st k p with
    | error x => rfl
    | ok st' =>
      simp only [ok_bind]
      exact ih n1 _ st' h1.cons (by simp at a1 ⊢; omega)
  | @moreNamed k p r es hk hp _ ih =>
    intro n i st ha hn
    obtain ⟨n1, x, a1, b1⟩ := each_name f hk n i none i st _ ha hn
    obtain ⟨n1, rfl⟩ : ∃ m, n1 = m + 1 := ⟨n1 - 1, by omega⟩
    have h1 := ha.append
    obtain ⟨n2, a2, b2⟩ := each_pieces f hp n1 _ (some (i + k.length)) i st _ h1.cons (by simp at a1 ⊢; omega)
    obtain ⟨n2, rfl⟩ : ∃ m, n2 = m + 1 := ⟨n2 - 1, by omega⟩
    have h2 := h1.cons.append
    rw [b1, each_colon f h1, b2, each_comma f h2 (compAt_named ha), List.foldlM_cons]
    cases f st k p with
    | error x => rfl
    | ok st' =>
      simp only [ok_bind]
      exact ih n2 _ st' h2.cons (by simp at a2 ⊢; omega)

theorem each_inner {s : Bytes} {es : List (Bytes × Bytes)} (h : EntriesOf s es) (o c : UInt8) (st : σ) :
    eachComp (o :: (s ++ [c])) f st = es.foldlM (fun st e => f st e.1 e.2) st := by
  unfold eachComp
  rw [if_neg (by simp)]
  have : slice (o :: (s ++ [c])) 1 ((o :: (s ++ [c])).length - 1) = .ok s := by
    have h1 : At (o :: (s ++ [c])) 1 (s ++ [c]) := (At.zero _).cons
    exact h1.slice' (by simp; omega)
  rw [this]
  simp only [ok_bind]
  exact each_entries f h _ _ _ (At.zero _) (by omega)

end

/-! ### Every text -/

theorem pieces_split : ∀ (n : Nat) (s : Bytes), s.length < n → ∃ p t, s = p ++ t ∧ Pieces b!",:" p ∧
    (t = [] ∨ t = b!"\\" ∨ (∃ o r, t = o :: r ∧ o ∈ b!"([{" ∧ NeverClosed (o :: r)) ∨ (∃ r, t = c! ',' :: r) ∨ ∃ r, t = c! ':' :: r)
  | 0, _, h => absurd h (by omega)
  | _ + 1, [], _ => ⟨[], [], rfl, .nil, .inl rfl⟩
  | n + 1, c :: s, hl => by
    simp only [List.length_cons] at hl
    by_cases h1 : c = c! '\\'
    · subst h1
      cases s with
      | nil => exact ⟨[], _, rfl, .nil, .inr (.inl rfl)⟩
      | cons d s =>
        obtain ⟨p, t, rfl, hp, ht⟩ := pieces_split n s (by simp at hl; omega)
        exact ⟨c! '\\' :: d :: p, t, rfl, .esc hp, ht⟩
    by_cases h2 : c ∈ b!"([{"
    · rcases sq_cases s with ⟨b, d, r, rfl, hb, hd, _⟩ | ⟨_, h⟩
      · obtain ⟨p, t, rfl, hp, ht⟩ := pieces_split n r (by simp at hl; omega)
        exact ⟨c :: (b ++ [d]) ++ p, t, by simp, .group ⟨c, b, d, h2, hd, hb, rfl⟩ hp, ht⟩
      · exact ⟨[], _, rfl, .nil, .inr (.inr (.inl ⟨c, s, rfl, h2, h c h2⟩))⟩
    by_cases h3 : c = c! ','
    · exact ⟨[], _, rfl, .nil, .inr (.inr (.inr (.inl ⟨s, by rw [h3]⟩)))⟩
    by_cases h4 : c = c! ':'
    · exact ⟨[], _, rfl, .nil, .inr (.inr (.inr (.inr ⟨s, by rw [h4]⟩)))⟩
    obtain ⟨p, t, rfl, hp, ht⟩ := pieces_split n s (by omega)
    refine ⟨c :: p, t, rfl, .plain ?_ ?_ hp, ht⟩
    · simp only [List.mem_cons, List.not_mem_nil, or_false, not_or] at h2 ⊢
      exact ⟨h1, h2⟩
    · simp only [List.mem_cons, List.not_mem_nil, or_false, not_or]
      exact ⟨h3, h4⟩

theorem pieces_weaken {p : Bytes} (h : Pieces b!",:" p) : Pieces b!"," p := by
  induction h with
  | nil => exact .nil
  | esc _ ih => exact .esc ih
  | group h _ ih => exact .group h ih
  | plain h1 h2 _ ih => exact .plain h1 (by simp at h2 ⊢; exact h2.1) ih

theorem pieces_append {stop p q : Bytes} (h : Pieces stop p) (hq : Pieces stop q) : Pieces stop (p ++ q) := by
  induction h with
  | nil => exact hq
  | esc _ ih => exact .esc ih
  | group h _ ih => rw [List.append_assoc]; exact .group h ih
  | plain h1 h2 _ ih => exact .plain h1 h2 ih

theorem entriesOf_both : ∀ (n : Nat) (s : Bytes), s.length < n → (∃ es, EntriesOf s es) ∧
    ∀ k, Pieces b!"," k → ∃ es, EntriesOf (k ++ c! ':' :: s) es
  | 0, _, h => absurd h (by omega)
  | n + 1, s, hl => by
    obtain ⟨p, t, rfl, hp, ht⟩ := pieces_split _ s hl
    obtain ⟨kp, hkp⟩ := keyFor_exists p
    rcases ht with rfl | rfl | ⟨o, r, rfl, ho, hr⟩ | ⟨r, rfl⟩ | ⟨r, rfl⟩
    · rw [List.append_nil]
      exact ⟨⟨_, .last (.closed hp) hkp⟩, fun k hk => ⟨_, .lastNamed hk (.closed hp)⟩⟩
    · refine ⟨⟨_, .lost (pieces_weaken hp)⟩, fun k hk => ⟨[], ?_⟩⟩
      have e : k ++ c! ':' :: (p ++ b!"\\") = (k ++ c! ':' :: p) ++ b!"\\" := by simp
      rw [e]
      exact .lost (pieces_append hk (.plain (by decide) (by decide) (pieces_weaken hp)))
    · obtain ⟨k', hk'⟩ := keyFor_exists (p ++ o :: r)
      exact ⟨⟨_, .last (.opened hp ho hr) hk'⟩, fun k hk => ⟨_, .lastNamed hk (.opened hp ho hr)⟩⟩
    · obtain ⟨es, he⟩ := (entriesOf_both n r (by simp at hl; omega)).1
      exact ⟨⟨_, .more hp hkp he⟩, fun k hk => ⟨_, .moreNamed hk hp he⟩⟩
    · have ih := (entriesOf_both n r (by simp at hl; omega)).2
      refine ⟨ih p (pieces_weaken hp), fun k hk => ?_⟩
      have := ih (k ++ c! ':' :: p) (pieces_append hk (.plain (by decide) (by decide) (pieces_weaken hp)))
      simpa using this

theorem entriesOf_exists (s : Bytes) : ∃ es, EntriesOf s es := (entriesOf_both _ s (Nat.lt_succ_self _)).1

theorem foldlM_collect : ∀ (es : List (Bytes × Bytes)) (acc : List (Bytes × Bytes)),
    es.foldlM (m := Except Fault) (fun (st : List (Bytes × Bytes)) e => .ok (st ++ [(e.1, e.2)])) acc = .ok (acc ++ es)
  | [], acc => by simp
  | e :: es, acc => by
    rw [List.foldlM_cons]
    simp only [ok_bind]
    rw [foldlM_collect es]
    simp

theorem entriesOf_one {s : Bytes} {es es' : List (Bytes × Bytes)} (h : EntriesOf s es) (h' : EntriesOf s es') : es = es' := by
  have a := each_inner (σ := List (Bytes × Bytes)) (fun st k p => .ok (st ++ [(k, p)])) h 0 0 []
  have b := each_inner (σ := List (Bytes × Bytes)) (fun st k p => .ok (st ++ [(k, p)])) h' 0 0 []
  rw [a] at b
  rw [foldlM_collect, foldlM_collect] at b
  simpa using b

end Gjson
