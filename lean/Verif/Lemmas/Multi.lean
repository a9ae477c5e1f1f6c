import Verif.SpecMulti
import Verif.Lemmas.Mods
import Verif.Lemmas.QueryPath
/-
Multipaths: how `path_next` finds their end and how `each_comp` splits them.
-/
namespace Gjson
open Spec

theorem quotedBody_plain : ∀ {b : Bytes}, PlainQuoted b → QuotedBody b
  | [], _ => .nil
  | c :: b, h => by
    have h1 := (h c (by simp)).1
    simp only [bracketSpecial] at h1
    exact .plain (by grind) (by grind) (quotedBody_plain fun x hx => h x (by simp [hx]))

theorem Spec.SubPath.name {p : Bytes} (h : SubPath p) : SubName p := by
  induction h with
  | nil => exact .nil
  | plain h1 h2 _ _ ih => exact .plain h1 h2 ih
  | esc _ ih => exact .esc ih
  | str h _ ih => exact .str h ih
  | group h1 h2 h3 _ ih => exact .group h1 h2 h3 ih

theorem Spec.SubName.balanced {p : Bytes} (h : SubName p) : Balanced p := by
  induction h with
  | nil => exact .nil
  | plain h1 _ _ ih => exact .plain h1 ih
  | esc _ ih => exact .esc ih
  | str h _ ih => exact .str (quotedBody_plain h) ih
  | group h1 h2 h3 _ ih => exact .group h1 h2 h3 ih

section
variable {σ : Type} {path : Bytes} (f : σ → Bytes → Bytes → Res σ)

theorem comp_skip_plain {c : UInt8} (h1 : c ∉ b!"\\()[]{}") (h2 : c ≠ c! ',') (h3 : c ≠ c! ':')
    {n i : Nat} {x : Option Nat} {s : Nat} {st : σ} {r : Bytes} (h : At path i (c :: r)) :
    eachCompLoop path f (n + 1) i x s st = eachCompLoop path f n (i + 1) x s st := by
  simp only [List.mem_cons, List.not_mem_nil, or_false, not_or] at h1
  rw [eachCompLoop, if_neg h.ne, h.idx]
  simp only [ok_bind]
  rw [if_neg (by grind), if_neg (by grind), if_neg h2, if_neg h3]

theorem comp_skip_esc {e : UInt8}
    {n i : Nat} {x : Option Nat} {s : Nat} {st : σ} {r : Bytes} (h : At path i (c! '\\' :: e :: r)) :
    eachCompLoop path f (n + 1) i x s st = eachCompLoop path f n (i + 2) x s st := by
  rw [eachCompLoop, if_neg h.ne, h.idx]
  simp only [ok_bind]
  rw [if_pos trivial, if_neg h.cons.ne]

theorem comp_skip_group {o c : UInt8} {b : Bytes} (ho : o ∈ b!"([{") (hc : c ∈ b!")]}") (hb : Balanced b)
    {n i : Nat} {x : Option Nat} {s : Nat} {st : σ} {r : Bytes} (h : At path i (o :: (b ++ c :: r))) :
    eachCompLoop path f (n + 1) i x s st = eachCompLoop path f n (i + (b.length + 2)) x s st := by
  rw [eachCompLoop, if_neg h.ne, h.idx]
  simp only [ok_bind]
  rw [if_neg (by grind), if_pos (by grind), (scanSquash_group h hb (closeTok_of hc)).1]
  simp

theorem comp_skip_quoted : ∀ {b : Bytes}, PlainQuoted b → ∀ (n i : Nat) (x : Option Nat) (s : Nat) (st : σ) (r : Bytes),
    At path i (b ++ r) →
    eachCompLoop path f (n + b.length) i x s st = eachCompLoop path f n (i + b.length) x s st
  | [], _, _, _, _, _, _, _, _ => rfl
  | c :: b, hb, n, i, x, s, st, r, h => by
    have h1 := hb c (by simp)
    simp only [bracketSpecial] at h1
    rw [List.length_cons, ← Nat.add_assoc, comp_skip_plain f (by grind) h1.2.1 h1.2.2 h,
      comp_skip_quoted (fun y hy => hb y (by simp [hy])) n (i + 1) x s st r h.cons]
    congr 1; omega

theorem comp_skip_str {b : Bytes} (hb : PlainQuoted b)
    {n i : Nat} {x : Option Nat} {s : Nat} {st : σ} {r : Bytes} (h : At path i (c! '"' :: (b ++ c! '"' :: r))) :
    eachCompLoop path f (n + (b.length + 2)) i x s st = eachCompLoop path f n (i + (b.length + 2)) x s st := by
  have e : n + (b.length + 2) = (n + 1) + b.length + 1 := by omega
  rw [e, comp_skip_plain f (by decide) (by decide) (by decide) h,
    comp_skip_quoted f hb (n + 1) (i + 1) x s st _ h.cons,
    comp_skip_plain f (by decide) (by decide) (by decide) h.cons.append]
  congr 1; omega

/-- `each_comp` walks over a sub path. -/
theorem comp_skip {p : Bytes} (hp : SubPath p) : ∀ (n i : Nat) (x : Option Nat) (s : Nat) (st : σ) (r : Bytes),
    At path i (p ++ r) → (p ++ r).length < n →
    ∃ n', r.length < n' ∧ eachCompLoop path f n i x s st = eachCompLoop path f n' (i + p.length) x s st := by
  induction hp with
  | nil => intro n i x s st r h hn; exact ⟨n, by simpa using hn, rfl⟩
  | @plain c q h1 h2 h3 _ ih =>
    intro n i x s st r h hn
    obtain ⟨n, rfl⟩ : ∃ m, n = m + 1 := ⟨n - 1, by omega⟩
    simp only [bracketSpecial] at h1
    rw [List.cons_append] at h hn
    obtain ⟨n', a, b⟩ := ih n (i + 1) x s st r h.cons (by simp at hn ⊢; omega)
    refine ⟨n', a, ?_⟩
    rw [comp_skip_plain f (by grind) h2 h3 h, b]
    congr 1; simp; omega
  | @esc e q _ ih =>
    intro n i x s st r h hn
    obtain ⟨n, rfl⟩ : ∃ m, n = m + 1 := ⟨n - 1, by omega⟩
    rw [List.cons_append, List.cons_append] at h hn
    obtain ⟨n', a, b⟩ := ih n (i + 2) x s st r h.cons.cons (by simp at hn ⊢; omega)
    refine ⟨n', a, ?_⟩
    rw [comp_skip_esc f h, b]
    congr 1; simp; omega
  | @str b q hb _ ih =>
    intro n i x s st r h hn
    have e : c! '"' :: (b ++ c! '"' :: q) ++ r = c! '"' :: (b ++ c! '"' :: (q ++ r)) := by simp
    rw [e] at h hn
    obtain ⟨n, rfl⟩ : ∃ m, n = m + (b.length + 2) := ⟨n - (b.length + 2), by simp at hn; omega⟩
    obtain ⟨n', a, b'⟩ := ih n (i + (b.length + 2)) x s st r
      (At.append' (t := c! '"' :: (b ++ [c! '"'])) (by simpa using h) (by simp)) (by simp at hn ⊢; omega)
    refine ⟨n', a, ?_⟩
    rw [comp_skip_str f hb h, b']
    congr 1; simp; omega
  | @group o c b q ho hc hb _ ih =>
    intro n i x s st r h hn
    have e : o :: (b ++ c :: q) ++ r = o :: (b ++ c :: (q ++ r)) := by simp
    rw [e] at h hn
    obtain ⟨n, rfl⟩ : ∃ m, n = m + 1 := ⟨n - 1, by omega⟩
    obtain ⟨n', a, b'⟩ := ih n (i + (b.length + 2)) x s st r
      (At.append' (t := o :: (b ++ [c])) (by simpa using h) (by simp)) (by simp at hn ⊢; omega)
    refine ⟨n', a, ?_⟩
    rw [comp_skip_group f ho hc hb h, b']
    congr 1; simp; omega

/-- `each_comp` walks over a name; it may take a colon in it for the end of the name, for a while. -/
theorem name_skip {p : Bytes} (hp : SubName p) : ∀ (n i : Nat) (x : Option Nat) (s : Nat) (st : σ) (r : Bytes),
    At path i (p ++ r) → (p ++ r).length < n →
    ∃ n' x', r.length < n' ∧ eachCompLoop path f n i x s st = eachCompLoop path f n' (i + p.length) x' s st := by
  induction hp with
  | nil => intro n i x s st r h hn; exact ⟨n, x, by simpa using hn, rfl⟩
  | @plain c q h1 h2 _ ih =>
    intro n i x s st r h hn
    obtain ⟨n, rfl⟩ : ∃ m, n = m + 1 := ⟨n - 1, by omega⟩
    simp only [bracketSpecial] at h1
    rw [List.cons_append] at h hn
    by_cases h3 : c = c! ':'
    · obtain ⟨n', x', a, b⟩ := ih n (i + 1) (some i) s st r h.cons (by simp at hn ⊢; omega)
      refine ⟨n', x', a, ?_⟩
      rw [eachCompLoop, if_neg h.ne, h.idx]
      simp only [ok_bind]
      rw [if_neg (by grind), if_neg (by grind), if_neg h2, if_pos h3, b]
      congr 1; simp; omega
    · obtain ⟨n', x', a, b⟩ := ih n (i + 1) x s st r h.cons (by simp at hn ⊢; omega)
      refine ⟨n', x', a, ?_⟩
      rw [comp_skip_plain f (by grind) h2 h3 h, b]
      congr 1; simp; omega
  | @esc e q _ ih =>
    intro n i x s st r h hn
    obtain ⟨n, rfl⟩ : ∃ m, n = m + 1 := ⟨n - 1, by omega⟩
    rw [List.cons_append, List.cons_append] at h hn
    obtain ⟨n', x', a, b⟩ := ih n (i + 2) x s st r h.cons.cons (by simp at hn ⊢; omega)
    refine ⟨n', x', a, ?_⟩
    rw [comp_skip_esc f h, b]
    congr 1; simp; omega
  | @str b q hb _ ih =>
    intro n i x s st r h hn
    have e : c! '"' :: (b ++ c! '"' :: q) ++ r = c! '"' :: (b ++ c! '"' :: (q ++ r)) := by simp
    rw [e] at h hn
    obtain ⟨n, rfl⟩ : ∃ m, n = m + (b.length + 2) := ⟨n - (b.length + 2), by simp at hn; omega⟩
    obtain ⟨n', x', a, b'⟩ := ih n (i + (b.length + 2)) x s st r
      (At.append' (t := c! '"' :: (b ++ [c! '"'])) (by simpa using h) (by simp)) (by simp at hn ⊢; omega)
    refine ⟨n', x', a, ?_⟩
    rw [comp_skip_str f hb h, b']
    congr 1; simp; omega
  | @group o c b q ho hc hb _ ih =>
    intro n i x s st r h hn
    have e : o :: (b ++ c :: q) ++ r = o :: (b ++ c :: (q ++ r)) := by simp
    rw [e] at h hn
    obtain ⟨n, rfl⟩ : ∃ m, n = m + 1 := ⟨n - 1, by omega⟩
    obtain ⟨n', x', a, b'⟩ := ih n (i + (b.length + 2)) x s st r
      (At.append' (t := o :: (b ++ [c])) (by simpa using h) (by simp)) (by simp at hn ⊢; omega)
    refine ⟨n', x', a, ?_⟩
    rw [comp_skip_group f ho hc hb h, b']
    congr 1; simp; omega

end

/-! ### The keys -/

theorem nameOfLastLoop_part {pre k : Bytes} (hk : LastPart k) : ∀ m, m ≤ k.length →
    nameOfLastLoop (pre ++ k) (pre.length + m) = nameOfLastLoop (pre ++ k) pre.length
  | 0, _ => rfl
  | m + 1, hm => by
    obtain ⟨a, c, r, rfl, rfl⟩ : ∃ a c r, k = a ++ c :: r ∧ a.length = m := by
      refine ⟨k.take m, k[m], k.drop (m + 1), ?_, by simp; omega⟩
      rw [List.getElem_cons_drop]; simp
    have e : pre ++ (a ++ c :: r) = (pre ++ a) ++ c :: r := by simp
    have hi : idx (pre ++ (a ++ c :: r)) (pre.length + a.length) = .ok c := by
      rw [e]
      have := (At.of_pre (pre ++ a) (c :: r)).idx
      simpa using this
    rw [← Nat.add_assoc, nameOfLastLoop, hi]
    simp only [ok_bind]
    have ih := nameOfLastLoop_part (pre := pre) hk a.length (by simp)
    by_cases hs : c = c! '|' ∨ c = c! '.'
    · rw [if_pos hs]
      have hl := hk a c r rfl (by grind)
      obtain ⟨a', rfl⟩ : ∃ a', a = a' ++ [c! '\\'] := by
        rw [List.getLast?_eq_some_iff] at hl; exact hl
      have hj : idx (pre ++ (a' ++ [c! '\\'] ++ c :: r)) (pre.length + (a' ++ [c! '\\']).length - 1) = .ok c! '\\' := by
        have e : pre ++ (a' ++ [c! '\\'] ++ c :: r) = (pre ++ a') ++ c! '\\' :: c :: r := by simp
        rw [e]
        have := (At.of_pre (pre ++ a') (c! '\\' :: c :: r)).idx
        have e2 : pre.length + (a' ++ [c! '\\']).length - 1 = (pre ++ a').length := by simp
        rw [e2]; exact this
      rw [if_pos (by simp; omega), hj]
      simp only [ok_bind]
      rw [if_pos trivial, ih]
    · rw [if_neg hs, ih]

theorem nameOfLast_spec {p k : Bytes} (h : LastName p k) : nameOfLast p = .ok k := by
  unfold nameOfLast
  cases h with
  | whole hk =>
    have := nameOfLastLoop_part (pre := []) hk p.length (by omega)
    simpa [nameOfLastLoop] using this
  | @after a _ s hs ha hk =>
    have := nameOfLastLoop_part (pre := a ++ [s]) hk k.length (by omega)
    have e : a ++ [s] ++ k = a ++ s :: k := by simp
    rw [e] at this
    have e2 : (a ++ s :: k).length = (a ++ [s]).length + k.length := by simp; omega
    rw [e2, this, List.length_append, List.length_singleton, nameOfLastLoop, (At.of_pre a (s :: k)).idx]
    simp only [ok_bind]
    have hf : sliceFrom (a ++ s :: k) (a.length + 1) = .ok k := (At.of_pre a (s :: k)).cons.sliceFrom
    rw [if_pos (by grind), hf]
    cases hl : a.getLast? with
    | none =>
      rw [List.getLast?_eq_none_iff] at hl
      subst hl; simp
    | some d =>
      rw [hl] at ha
      obtain ⟨a', rfl⟩ := List.getLast?_eq_some_iff.1 hl
      have : idx (a' ++ [d] ++ s :: k) ((a' ++ [d]).length - 1) = .ok d := by
        have := (At.of_pre a' (d :: s :: k)).idx
        simpa using this
      rw [if_pos (by simp), this]
      simp only [ok_bind]
      rw [if_neg (by simpa using ha)]

theorem isSimpleName_iff : ∀ (k : Bytes), isSimpleName k = true ↔ SimpleName k
  | [] => by simp [isSimpleName, SimpleName]
  | c :: k => by
    have ih := isSimpleName_iff k
    have e : SimpleName (c :: k) ↔ (¬ c < 0x20 ∧ c ∉ b!"[]{}()#|") ∧ SimpleName k := by
      simp [SimpleName]
    rw [e, ← ih, isSimpleName]
    split
    · rename_i h
      have h' : c < 0x20 := h
      simp [h']
    · rename_i h
      have h' : ¬ c < 0x20 := h
      split
      · rename_i h2
        constructor
        · simp
        · intro hh; exact absurd hh.1.2 (by grind)
      · rename_i h2
        exact ⟨fun hh => ⟨⟨h', by simpa using h2⟩, hh⟩, fun hh => hh.2⟩

/-- Every path has a last name. -/
theorem lastName_exists (p : Bytes) : ∃ k, LastName p k := by
  have ext : ∀ {k : Bytes} {c : UInt8}, LastPart k → ((c = c! '.' ∨ c = c! '|') → k.getLast? = some (c! '\\')) →
      LastPart (k ++ [c]) := by
    intro k c hk hc a s r e hs
    rcases List.eq_nil_or_concat r with rfl | ⟨r', d, rfl⟩
    · have := List.append_inj' e rfl
      simp only [List.cons.injEq, and_true] at this
      obtain ⟨rfl, rfl⟩ := this
      exact hc hs
    · have e' : k ++ [c] = (a ++ s :: r') ++ [d] := by rw [e]; simp
      have := (List.append_inj' e' rfl).1
      exact hk a s r' this hs
  have main : ∀ q : Bytes, ∃ k, LastName q.reverse k := by
    intro q
    induction q with
    | nil => exact ⟨[], .whole (by intro a s r e; simp at e)⟩
    | cons c q ih =>
      obtain ⟨k, hk⟩ := ih
      rw [List.reverse_cons]
      generalize q.reverse = p at hk
      by_cases hs : (c = c! '.' ∨ c = c! '|') ∧ p.getLast? ≠ some (c! '\\')
      · exact ⟨[], .after hs.1 hs.2 (by intro a s r e; simp at e)⟩
      · have hs' : (c = c! '.' ∨ c = c! '|') → p.getLast? = some (c! '\\') := by
          intro h; exact Classical.byContradiction fun h' => hs ⟨h, h'⟩
        refine ⟨k ++ [c], ?_⟩
        cases hk with
        | whole h => exact .whole (ext h hs')
        | @after a _ s h1 h2 h3 =>
          have : a ++ s :: k ++ [c] = a ++ s :: (k ++ [c]) := by simp
          rw [this]
          refine .after h1 h2 (ext h3 fun h => ?_)
          have hl := hs' h
          cases k with
          | nil =>
            simp only [List.getLast?_append, List.getLast?_singleton, Option.some_or, Option.some.injEq] at hl
            grind
          | cons d k => simpa using hl
  have := main p.reverse
  rwa [List.reverse_reverse] at this

/-! ### The entries -/

/-- An entry as `each_comp` sees it. -/
inductive Ent : Bytes → Bytes → Bytes → Prop
  | named {k p : Bytes} : SubName k → SubPath p → Ent (k ++ c! ':' :: p) k p
  | plain {p k : Bytes} : SubPath p → keyForPath p = .ok k → Ent p k p

theorem keyForPath_last {p k : Bytes} (h : LastName p k) (hs : SimpleName k) : keyForPath p = .ok k := by
  unfold keyForPath
  rw [nameOfLast_spec h]
  simp only [ok_bind]
  rw [if_pos ((isSimpleName_iff k).2 hs)]

theorem keyForPath_other {p k : Bytes} (h : LastName p k) (hs : ¬ SimpleName k) : keyForPath p = .ok b!"_" := by
  unfold keyForPath
  rw [nameOfLast_spec h]
  simp only [ok_bind]
  rw [if_neg (fun h => hs ((isSimpleName_iff k).1 h))]

theorem Spec.Entry.ent {t k p : Bytes} (h : Entry t k p) : Ent t k p := by
  cases h with
  | named h1 h2 => exact .named h1 h2
  | last h1 h2 h3 => exact .plain h1 (keyForPath_last h2 h3)
  | other h1 h2 h3 => exact .plain h1 (keyForPath_other h2 h3)

/-- A sub path alone is an entry, under some key. -/
theorem entry_of_subPath {p : Bytes} (h : SubPath p) : ∃ k, Entry p k p := by
  obtain ⟨k, hk⟩ := lastName_exists p
  by_cases hs : SimpleName k
  · exact ⟨k, .last h hk hs⟩
  · exact ⟨_, .other h hk hs⟩

theorem Ent.balanced {t k p : Bytes} (h : Ent t k p) : Balanced t := by
  cases h with
  | named h1 h2 => exact h1.balanced.append (.plain (by decide) h2.name.balanced)
  | plain h1 _ => exact h1.name.balanced

section
variable {σ : Type} {path : Bytes} (f : σ → Bytes → Bytes → Res σ)

/-- `each_comp` at the start of an entry arrives at its end with the right key and sub path. -/
theorem comp_entry {t k p : Bytes} (h : Ent t k p) (n i : Nat) (st : σ) (r : Bytes)
    (ha : At path i (t ++ r)) (hn : (t ++ r).length < n) :
    ∃ n' x, r.length < n' ∧ eachCompLoop path f n i none i st = eachCompLoop path f n' (i + t.length) x i st ∧
      compAt path i (i + t.length) x = .ok (k, p) := by
  cases h with
  | plain h1 h2 =>
    obtain ⟨n', a, b⟩ := comp_skip f h1 n i none i st r ha hn
    refine ⟨n', none, a, b, ?_⟩
    unfold compAt
    simp only
    rw [ha.slice]
    simp only [ok_bind]
    rw [h2]; rfl
  | named h1 h2 =>
    have e : k ++ c! ':' :: p ++ r = k ++ c! ':' :: (p ++ r) := by simp
    rw [e] at ha hn
    obtain ⟨n1, x1, a1, b1⟩ := name_skip f h1 n i none i st _ ha hn
    obtain ⟨n1, rfl⟩ : ∃ m, n1 = m + 1 := ⟨n1 - 1, by omega⟩
    have h3 := ha.append
    obtain ⟨n2, a2, b2⟩ := comp_skip f h2 n1 (i + k.length + 1) (some (i + k.length)) i st r h3.cons (by simp at a1 ⊢; omega)
    refine ⟨n2, some (i + k.length), a2, ?_, ?_⟩
    · rw [b1, eachCompLoop, if_neg h3.ne, h3.idx]
      simp only [ok_bind]
      rw [if_neg (by decide), if_neg (by decide), if_neg (by decide), if_pos trivial, b2]
      congr 1; simp; omega
    · unfold compAt
      simp only
      rw [ha.slice]
      simp only [ok_bind]
      rw [h3.cons.slice' (by simp; omega)]
      rfl

/-- `each_comp` calls its function on each entry in turn. -/
theorem comp_entries : ∀ {ts : List Bytes} {es : List (Bytes × Bytes)},
    Aligned (fun t e => Ent t e.1 e.2) ts es → ts ≠ [] → ∀ (n i : Nat) (st : σ),
    At path i (commaSep ts) → (commaSep ts).length < n →
    eachCompLoop path f n i none i st = es.foldlM (fun st e => f st e.1 e.2) st
  | _, _, .nil, h, _, _, _, _, _ => absurd rfl h
  | _, _, .cons (a := t) (b := e) h .nil, _, n, i, st, ha, hn => by
    simp only [commaSep] at ha hn
    have ha' : At path i (t ++ []) := by simpa using ha
    obtain ⟨n', x, a, b, c⟩ := comp_entry f h n i st [] ha' (by simpa using hn)
    obtain ⟨n', rfl⟩ : ∃ m, n' = m + 1 := ⟨n' - 1, by omega⟩
    rw [b, eachCompLoop, if_pos ha'.append.nil, c]
    simp only [ok_bind, List.foldlM_cons, List.foldlM_nil]
    cases f st e.1 e.2 <;> rfl
  | _, _, .cons (a := t) (b := e) h (.cons (a := t2) (as := ts) (b := e2) (bs := es) h2 hs), _, n, i, st, ha, hn => by
    simp only [commaSep] at ha hn
    obtain ⟨n', x, a, b, c⟩ := comp_entry f h n i st _ ha hn
    obtain ⟨n', rfl⟩ : ∃ m, n' = m + 1 := ⟨n' - 1, by omega⟩
    have h3 := ha.append
    rw [b, eachCompLoop, if_neg h3.ne, h3.idx]
    simp only [ok_bind]
    rw [if_neg (by decide), if_neg (by decide), if_pos trivial, c]
    simp only [ok_bind]
    rw [List.foldlM_cons]
    cases f st e.1 e.2 with
    | error x => rfl
    | ok st' =>
      simp only [ok_bind]
      exact comp_entries (.cons h2 hs) (by simp) n' _ st' h3.cons (by simp at a ⊢; omega)

theorem eachComp_entries {ts : List Bytes} {es : List (Bytes × Bytes)}
    (h : Aligned (fun t e => Ent t e.1 e.2) ts es) (ht : ts ≠ []) (o c : UInt8) (st : σ) :
    eachComp (o :: (commaSep ts ++ [c])) f st = es.foldlM (fun st e => f st e.1 e.2) st := by
  unfold eachComp
  rw [if_neg (by simp)]
  have : slice (o :: (commaSep ts ++ [c])) 1 ((o :: (commaSep ts ++ [c])).length - 1) = .ok (commaSep ts) := by
    have h1 : At (o :: (commaSep ts ++ [c])) 1 (commaSep ts ++ [c]) := (At.zero _).cons
    exact h1.slice' (by simp; omega)
  rw [this]
  simp only [ok_bind]
  exact comp_entries f h ht _ _ _ (At.zero _) (by omega)

end

theorem balanced_entries : ∀ {ts : List Bytes} {es : List (Bytes × Bytes)},
    Aligned (fun t e => Ent t e.1 e.2) ts es → Balanced (commaSep ts)
  | _, _, .nil => .nil
  | _, _, .cons h .nil => h.balanced
  | _, _, .cons h (.cons h2 hs) => by
    rw [commaSep]
    exact h.balanced.append (.plain (by decide) (balanced_entries (.cons h2 hs)))

/-! ### The path component -/

theorem pNext_multi {o c : UInt8} {b : Bytes} (ho : o = c! '[' ∨ o = c! '{') (hc : CloseTok c) (hb : Balanced b)
    {sep : UInt8} {rest t : Bytes} (ht : Tail sep rest t) :
    pNext (o :: (b ++ [c]) ++ t) = ⟨o :: (b ++ [c]), false, false, sep, 0, rest⟩ := by
  have e : o :: (b ++ [c]) ++ t = o :: (b ++ c :: t) := by simp
  have key : pathNext (o :: (b ++ [c]) ++ t) = .ok ⟨o :: (b ++ [c]), false, false, sep, 0, rest⟩ := by
    have h0 := At.zero (o :: (b ++ [c]) ++ t)
    have h1 : At (o :: (b ++ [c]) ++ t) 0 (o :: (b ++ c :: t)) := by rw [← e]; exact h0
    have hd : pathNext (o :: (b ++ [c]) ++ t) = pathNextMultipath (o :: (b ++ [c]) ++ t) := by
      rw [e, pathNext]
      rw [if_neg (by grind), if_neg (by grind), if_pos (by grind)]
    obtain ⟨g1, g2⟩ := scanSquash_group h1 hb hc
    rw [hd]
    unfold pathNextMultipath
    rw [g1]
    have hs := h0.slice
    simp only [ok_bind, Nat.zero_add] at g2 hs ⊢
    rw [hs]
    simp only [ok_bind]
    cases t with
    | nil =>
      obtain ⟨rfl, rfl⟩ := ht
      rw [if_pos g2.nil, (At.end _).sliceFrom]; rfl
    | cons d q =>
      obtain ⟨h3, rfl, rfl⟩ := ht
      unfold IsSep at h3
      rw [if_neg g2.ne, g2.idx]
      simp only [ok_bind]
      rw [if_neg (by grind), g2.cons.sliceFrom]; rfl
  unfold pNext
  rw [key]

/-! ### The results -/

theorem pushValue_snoc (done : List Value) (w : Value) :
    pushValue (c! '[' :: joinComma (existing done), (existing done).length) w =
      (c! '[' :: joinComma (existing (done ++ [w])), (existing (done ++ [w])).length) := by
  unfold pushValue existing
  simp only [List.filter_append, List.map_append]
  cases hw : w.exists
  · simp [hw]
  · rw [if_pos rfl]
    simp only [hw, List.filter_cons, if_true, List.filter_nil, List.map_cons, List.map_nil]
    rw [joinComma_snoc]
    cases (List.filter (fun x => x.exists) done).map (fun x => x.json) <;> simp [joinComma]

theorem push_paths (g : Bytes → Res Value) : ∀ (es : List (Bytes × Bytes)) (done : List Value),
    es.foldlM (fun (st : Bytes × Nat) e => do let res ← g e.2; .ok (pushValue st res))
      (c! '[' :: joinComma (existing done), (existing done).length) =
    ((es.map (·.2)).mapM g >>= fun l =>
      .ok (c! '[' :: joinComma (existing (done ++ l)), (existing (done ++ l)).length))
  | [], done => by simp
  | e :: es, done => by
    rw [List.foldlM_cons, List.map_cons, List.mapM_cons]
    cases g e.2 with
    | error x => rfl
    | ok w =>
      simp only [ok_bind, pushValue_snoc]
      rw [push_paths g es (done ++ [w])]
      cases (es.map (·.2)).mapM g <;> simp

/-- The members of the object built from the existing values. -/
def members (l : List (Bytes × Value)) : List (Bytes × Bytes) :=
  (l.filter (·.2.exists)).map fun kv => (jsonString kv.1, kv.2.json)

/-- A member as text. -/
def memberText (kv : Bytes × Bytes) : Bytes := kv.1 ++ c! ':' :: kv.2

theorem pushMember_snoc (done : List (Bytes × Value)) (k : Bytes) (w : Value) :
    pushMember (c! '{' :: joinComma ((members done).map memberText), (members done).length) k w =
      (c! '{' :: joinComma ((members (done ++ [(k, w)])).map memberText), (members (done ++ [(k, w)])).length) := by
  unfold pushMember members
  simp only [List.filter_append, List.map_append]
  cases hw : w.exists
  · simp [hw]
  · rw [if_pos rfl]
    simp only [hw, List.filter_cons, if_true, List.filter_nil, List.map_cons, List.map_nil]
    rw [joinComma_snoc]
    cases List.filter (fun x : Bytes × Value => x.2.exists) done <;> simp [joinComma, memberText]

theorem push_members (g : Bytes → Res Value) : ∀ (es : List (Bytes × Bytes)) (done : List (Bytes × Value)),
    es.foldlM (fun (st : Bytes × Nat) e => do let res ← g e.2; .ok (pushMember st e.1 res))
      (c! '{' :: joinComma ((members done).map memberText), (members done).length) =
    ((es.map (·.2)).mapM g >>= fun l =>
      .ok (c! '{' :: joinComma ((members (done ++ (es.map (·.1)).zip l)).map memberText),
        (members (done ++ (es.map (·.1)).zip l)).length))
  | [], done => by simp
  | e :: es, done => by
    rw [List.foldlM_cons, List.map_cons, List.mapM_cons]
    cases g e.2 with
    | error x => rfl
    | ok w =>
      simp only [ok_bind, pushMember_snoc]
      rw [push_members g es (done ++ [(e.1, w)])]
      cases (es.map (·.2)).mapM g <;> simp

/-- The array of a multipath. -/
def multiArray (rs : List Value) : Value := mkOwned (arrayText (existing rs)) none INFO_ARRAY

/-- The object of a multipath. -/
def multiObject (ks : List Bytes) (rs : List Value) : Value :=
  mkOwned (objectText (members (ks.zip rs))) none INFO_OBJECT

theorem unclosed_last (o : UInt8) (b : Bytes) (c : UInt8) : unclosed (o :: (b ++ [c])) c = .ok false := by
  unfold unclosed
  rw [if_neg (by simp)]
  have : idx (o :: (b ++ [c])) ((o :: (b ++ [c])).length - 1) = .ok c := by
    have := (At.of_pre (o :: b) [c]).idx
    simpa using this
  rw [this]
  simp

theorem multiExec_arr {ts : List Bytes} {es : List (Bytes × Bytes)} (h : Aligned (fun t e => Ent t e.1 e.2) ts es)
    (ht : ts ≠ []) (rec : GetFn) (json : Bytes) {p : Path} (hp : p.comp = c! '[' :: (commaSep ts ++ [c! ']'])) :
    multiExec rec json p = ((es.map (·.2)).mapM (rec json) >>= fun rs => .ok (multiArray rs, p)) := by
  unfold multiExec execArr
  rw [hp, (At.zero _).idx]
  simp only [ok_bind]
  rw [if_pos trivial, unclosed_last, eachComp_entries _ h ht]
  simp only [ok_bind, Bool.false_eq_true, if_false]
  have := push_paths (rec json) es []
  simp only [existing, List.filter_nil, List.map_nil, joinComma, List.length_nil, List.nil_append] at this
  rw [this]
  cases (es.map (·.2)).mapM (rec json) with
  | error e => rfl
  | ok l => simp only [ok_bind, jsonFromOwned_eq, multiArray, arrayText, existing, joinComma_eq, List.cons_append]

theorem multiExec_obj {ts : List Bytes} {es : List (Bytes × Bytes)} (h : Aligned (fun t e => Ent t e.1 e.2) ts es)
    (ht : ts ≠ []) (rec : GetFn) (json : Bytes) {p : Path} (hp : p.comp = c! '{' :: (commaSep ts ++ [c! '}'])) :
    multiExec rec json p = ((es.map (·.2)).mapM (rec json) >>= fun rs => .ok (multiObject (es.map (·.1)) rs, p)) := by
  unfold multiExec execObj
  rw [hp, (At.zero _).idx]
  simp only [ok_bind]
  rw [if_neg (by decide), unclosed_last, eachComp_entries _ h ht]
  simp only [ok_bind, Bool.false_eq_true, if_false]
  have := push_members (rec json) es []
  simp only [members, List.filter_nil, List.map_nil, joinComma, List.length_nil, List.nil_append] at this
  rw [this]
  cases (es.map (·.2)).mapM (rec json) with
  | error e => rfl
  | ok l =>
    simp only [ok_bind, jsonFromOwned_eq, multiObject, objectText, members, joinComma_eq, List.cons_append]
    rfl

theorem get_multi {o c : UInt8} {b : Bytes} (ho : o = c! '[' ∨ o = c! '{') (hc : CloseTok c) (hb : Balanced b)
    {sep : UInt8} {rest t : Bytes} (ht : Tail sep rest t) (json : Bytes) :
    get json (o :: (b ++ [c]) ++ t) =
      (multiExec get json ⟨o :: (b ++ [c]), false, false, sep, 0, rest⟩ >>= fun x =>
        if x.2.more then getIn get x.1 x.2.extra else .ok x.1) := by
  have hl : linesPrefix (o :: (b ++ [c]) ++ t) = (o :: (b ++ [c]) ++ t, false) := by
    rw [List.cons_append]
    unfold linesPrefix
    cases b ++ [c] ++ t with
    | nil => rfl
    | cons d q => simp only; rw [if_neg (by grind)]
  rw [get_eq, getBody, getFirst_eq, hl]
  simp only [Bool.false_eq_true, if_false]
  rw [pNext_multi ho hc hb ht]
  have h1 : Path.isModifier ⟨o :: (b ++ [c]), false, false, sep, 0, rest⟩ = false := by
    unfold Path.isModifier; simp; grind
  have h2 : Path.isMultipath ⟨o :: (b ++ [c]), false, false, sep, 0, rest⟩ = true := by
    unfold Path.isMultipath; simp; grind
  rw [h1, h2]
  simp only [Bool.false_eq_true, if_false, if_true]
  cases multiExec get json ⟨o :: (b ++ [c]), false, false, sep, 0, rest⟩ with
  | error e => rfl
  | ok x =>
    simp only [ok_bind]
    cases x.2.more <;> simp

theorem get_multi_arr {ts : List Bytes} {es : List (Bytes × Bytes)} (h : Aligned (fun t e => Ent t e.1 e.2) ts es)
    (ht : ts ≠ []) {sep : UInt8} {rest t : Bytes} (htl : Tail sep rest t) (json : Bytes) :
    get json (c! '[' :: (commaSep ts ++ [c! ']']) ++ t) =
      ((es.map (·.2)).mapM (get json) >>= fun rs => if sep = 0 then .ok (multiArray rs) else getIn get (multiArray rs) rest) := by
  rw [get_multi (.inl rfl) (by unfold CloseTok; decide) (balanced_entries h) htl, multiExec_arr h ht get json rfl]
  cases (es.map (·.2)).mapM (get json) with
  | error e => rfl
  | ok rs =>
    simp only [ok_bind, Path.more]
    by_cases h0 : sep = 0 <;> simp [h0]

theorem get_multi_obj {ts : List Bytes} {es : List (Bytes × Bytes)} (h : Aligned (fun t e => Ent t e.1 e.2) ts es)
    (ht : ts ≠ []) {sep : UInt8} {rest t : Bytes} (htl : Tail sep rest t) (json : Bytes) :
    get json (c! '{' :: (commaSep ts ++ [c! '}']) ++ t) =
      ((es.map (·.2)).mapM (get json) >>= fun rs =>
        if sep = 0 then .ok (multiObject (es.map (·.1)) rs) else getIn get (multiObject (es.map (·.1)) rs) rest) := by
  rw [get_multi (.inr rfl) (by unfold CloseTok; decide) (balanced_entries h) htl, multiExec_obj h ht get json rfl]
  cases (es.map (·.2)).mapM (get json) with
  | error e => rfl
  | ok rs =>
    simp only [ok_bind, Path.more]
    by_cases h0 : sep = 0 <;> simp [h0]

end Gjson
