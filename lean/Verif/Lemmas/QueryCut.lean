import Verif.SpecCut
import Verif.Lemmas.QueryPath
import Verif.Lemmas.PipeAny
import Verif.Lemmas.CutUp
/-
`query_parts` evaluated by the rules of `QueryCut`.
-/
namespace Gjson
open Spec

theorem trimOf_trim {s t : Bytes} (h : TrimOf s t) : trim s = t := by
  obtain ⟨w1, w2, rfl, h1, h2, h3⟩ := h
  exact trim_pad h1 h2 h3

theorem trimStart_of (s : Bytes) : ∃ w, s = w ++ trimStart s ∧ Blank w ∧ ∀ c ∈ (trimStart s).head?, ¬ c ≤ 0x20 := by
  induction s with
  | nil => exact ⟨[], rfl, by simp [Blank], by simp [trimStart]⟩
  | cons c r ih =>
    rw [trimStart]
    split
    · rename_i hc
      obtain ⟨w, h1, h2, h3⟩ := ih
      refine ⟨c :: w, by rw [List.cons_append, ← h1], ?_, h3⟩
      intro x hx
      rcases List.mem_cons.1 hx with rfl | hx
      · exact hc
      · exact h2 x hx
    · rename_i hc
      exact ⟨[], rfl, by simp [Blank], by simpa using hc⟩

theorem trimOf_exists (s : Bytes) : ∃ t, TrimOf s t := by
  obtain ⟨w1, h1, b1, t1⟩ := trimStart_of s
  obtain ⟨w2, h2, b2, t2⟩ := trimStart_of (trimStart s).reverse
  generalize hu : trimStart s = u at *
  generalize hv : trimStart u.reverse = v at *
  have hr : u = v.reverse ++ w2.reverse := by
    rw [← List.reverse_append, ← h2, List.reverse_reverse]
  refine ⟨v.reverse, w1, w2.reverse, by rw [← hr]; exact h1, b1, fun x hx => b2 x (List.mem_reverse.1 hx), ?_, ?_⟩
  · intro c hc
    refine t1 c ?_
    rw [hr]
    cases hv' : v.reverse with
    | nil => rw [hv'] at hc; simp at hc
    | cons a b => rw [hv'] at hc; simpa using hc
  · intro c hc
    rw [List.getLast?_reverse] at hc
    exact t2 c hc

theorem startsOp_split {s o r : Bytes} (h : StartsOp s o r) : s = o ++ r ∧ o ≠ [] := by
  cases h <;> exact ⟨rfl, by simp⟩

theorem startsOp_eval {query s o r : Bytes} {i : Nat} (h : StartsOp s o r) (hA : At query i s) :
    ∃ c t, s = c :: t ∧ c ∉ b!"\\()" ∧ queryOpAt query i c = .ok (some (i, i + o.length)) := by
  cases h with
  | percent => exact ⟨_, _, rfl, by decide, by unfold queryOpAt; rw [if_pos rfl]; rfl⟩
  | @compareEq c r hc =>
    simp only [List.mem_cons, List.not_mem_nil, or_false] at hc
    refine ⟨_, _, rfl, ?_, ?_⟩
    · rcases hc with rfl | rfl | rfl <;> decide
    · unfold queryOpAt
      rw [if_neg (by rcases hc with rfl | rfl | rfl <;> decide), if_neg (by rcases hc with rfl | rfl | rfl <;> decide), if_pos hc,
        if_pos hA.cons.lt, hA.cons.idx]
      rfl
  | @compare c r hc hr =>
    simp only [List.mem_cons, List.not_mem_nil, or_false] at hc
    refine ⟨_, _, rfl, ?_, ?_⟩
    · rcases hc with rfl | rfl | rfl <;> decide
    · unfold queryOpAt
      rw [if_neg (by rcases hc with rfl | rfl | rfl <;> decide), if_neg (by rcases hc with rfl | rfl | rfl <;> decide), if_pos hc]
      cases r with
      | nil => rw [if_neg (by have := hA.len; simp at this; omega)]; rfl
      | cons d t =>
        rw [if_pos hA.cons.lt, hA.cons.idx]
        simp only [ok_bind]
        rw [if_neg (hr d (by simp))]
        rfl
  | @notTwo d r hd =>
    simp only [List.mem_cons, List.not_mem_nil, or_false] at hd
    refine ⟨_, _, rfl, by decide, ?_⟩
    unfold queryOpAt
    rw [if_neg (by decide), if_pos rfl, if_pos hA.cons.lt, hA.cons.idx]
    simp only [ok_bind]
    rw [if_pos hd]
    rfl
  | @notOne r hr =>
    refine ⟨_, _, rfl, by decide, ?_⟩
    unfold queryOpAt
    rw [if_neg (by decide), if_pos rfl]
    cases r with
    | nil => rw [if_neg (by have := hA.len; simp at this; omega)]; rfl
    | cons d t =>
      rw [if_pos hA.cons.lt, hA.cons.idx]
      simp only [ok_bind]
      have := hr d (by simp)
      rw [if_neg (by simpa using this)]
      rfl

theorem cutAtOp_split {d : Int} {s l o r : Bytes} (h : CutAtOp d s l o r) : s = l ++ (o ++ r) ∧ (o = [] → r = []) := by
  induction h with
  | none => simp
  | backslash => simp
  | esc _ ih => exact ⟨by rw [ih.1]; rfl, ih.2⟩
  | opened _ ih => exact ⟨by rw [ih.1]; rfl, ih.2⟩
  | closed _ ih => exact ⟨by rw [ih.1]; rfl, ih.2⟩
  | inside _ _ _ ih => exact ⟨by rw [ih.1]; rfl, ih.2⟩
  | other _ _ _ ih => exact ⟨by rw [ih.1]; rfl, ih.2⟩
  | op _ h => exact ⟨(startsOp_split h).1, fun h' => absurd h' (startsOp_split h).2⟩

theorem queryOpLoop_cut {query : Bytes} {d : Int} {s l o r : Bytes} (h : CutAtOp d s l o r) :
    ∀ {i n : Nat}, At query i s → s.length < n →
      queryOpLoop query n i d = .ok (if o = [] then none else some (i + l.length, i + l.length + o.length)) := by
  induction h with
  | none =>
    intro i n hA hn
    obtain ⟨n, rfl⟩ : ∃ m, n = m + 1 := ⟨n - 1, by omega⟩
    rw [queryOpLoop, if_neg (by have := hA.len; simp at this; omega)]
    rfl
  | backslash =>
    intro i n hA hn
    obtain ⟨n, rfl⟩ : ∃ m, n = m + 1 := ⟨n - 1, by omega⟩
    rw [queryOpLoop, if_pos hA.lt, hA.idx]
    simp only [ok_bind]
    rw [if_pos trivial, if_pos (by have := hA.len; simp at this; omega)]
    rfl
  | esc _ ih =>
    intro i n hA hn
    obtain ⟨n, rfl⟩ : ∃ m, n = m + 1 := ⟨n - 1, by omega⟩
    rw [queryOpLoop, if_pos hA.lt, hA.idx]
    simp only [ok_bind]
    rw [if_pos trivial, if_neg hA.cons.ne, ih hA.cons.cons (by simp at hn; omega)]
    congr 3 <;> simp <;> omega
  | opened _ ih =>
    intro i n hA hn
    obtain ⟨n, rfl⟩ : ∃ m, n = m + 1 := ⟨n - 1, by omega⟩
    rw [queryOpLoop, if_pos hA.lt, hA.idx]
    simp only [ok_bind]
    rw [if_neg (by decide), if_pos trivial, ih hA.cons (by simp at hn; omega)]
    congr 3 <;> simp <;> omega
  | closed _ ih =>
    intro i n hA hn
    obtain ⟨n, rfl⟩ : ∃ m, n = m + 1 := ⟨n - 1, by omega⟩
    rw [queryOpLoop, if_pos hA.lt, hA.idx]
    simp only [ok_bind]
    rw [if_neg (by decide), if_neg (by decide), if_pos trivial, ih hA.cons (by simp at hn; omega)]
    congr 3 <;> simp <;> omega
  | inside hd hc _ ih =>
    intro i n hA hn
    obtain ⟨n, rfl⟩ : ∃ m, n = m + 1 := ⟨n - 1, by omega⟩
    simp only [List.mem_cons, List.not_mem_nil, or_false, not_or] at hc
    rw [queryOpLoop, if_pos hA.lt, hA.idx]
    simp only [ok_bind]
    rw [if_neg hc.1, if_neg hc.2.1, if_neg hc.2.2, if_pos hd, ih hA.cons (by simp at hn; omega)]
    congr 3 <;> simp <;> omega
  | @other d c s l o r hd hc _ ih =>
    intro i n hA hn
    obtain ⟨n, rfl⟩ : ∃ m, n = m + 1 := ⟨n - 1, by omega⟩
    simp only [List.mem_cons, List.not_mem_nil, or_false, not_or] at hc
    obtain ⟨h1, h2, h3, h4, h5, h6, h7, h8⟩ := hc
    have hop : queryOpAt query i c = .ok none := by
      unfold queryOpAt
      rw [if_neg h8, if_neg h7, if_neg (by simp [h4, h5, h6])]
    rw [queryOpLoop, if_pos hA.lt, hA.idx]
    simp only [ok_bind]
    rw [if_neg h1, if_neg h2, if_neg h3, if_neg (by omega), hop]
    simp only [ok_bind]
    rw [ih hA.cons (by simp at hn; omega)]
    congr 3 <;> simp <;> omega
  | op hd ho =>
    intro i n hA hn
    obtain ⟨n, rfl⟩ : ∃ m, n = m + 1 := ⟨n - 1, by omega⟩
    have hne := (startsOp_split ho).2
    obtain ⟨c, t, rfl, hc, hop⟩ := startsOp_eval ho hA
    simp only [List.mem_cons, List.not_mem_nil, or_false, not_or] at hc
    rw [queryOpLoop, if_pos hA.lt, hA.idx]
    simp only [ok_bind]
    rw [if_neg hc.1, if_neg hc.2.1, if_neg hc.2.2, if_neg (by omega), hop, if_neg hne]
    rfl

theorem startsOp_exists {c : UInt8} {s : Bytes} (h : c ∈ b!"=<>!%") : ∃ o r, StartsOp (c :: s) o r := by
  simp only [List.mem_cons, List.not_mem_nil, or_false] at h
  by_cases h8 : c = c! '%'
  · subst h8; exact ⟨_, _, .percent⟩
  by_cases h7 : c = c! '!'
  · subst h7
    cases s with
    | nil => exact ⟨_, _, .notOne (by simp)⟩
    | cons d t =>
      by_cases hd : d ∈ b!"=%"
      · exact ⟨_, _, .notTwo hd⟩
      · exact ⟨_, _, .notOne (by simpa using hd)⟩
  have hc : c ∈ b!"=<>" := by
    simp only [List.mem_cons, List.not_mem_nil, or_false]
    rcases h with h | h | h | h | h <;> simp_all
  cases s with
  | nil => exact ⟨_, _, .compare hc (by simp)⟩
  | cons d t =>
    by_cases hd : d = c! '='
    · subst hd; exact ⟨_, _, .compareEq hc⟩
    · exact ⟨_, _, .compare hc (by simpa using hd)⟩

theorem cutAtOp_exists : ∀ (n : Nat) (s : Bytes) (d : Int), s.length ≤ n → ∃ l o r, CutAtOp d s l o r := by
  intro n
  induction n with
  | zero => intro s d h; rw [List.eq_nil_of_length_eq_zero (by omega : s.length = 0)]; exact ⟨_, _, _, .none⟩
  | succ n ih =>
    intro s d h
    match s, h with
    | [], _ => exact ⟨_, _, _, .none⟩
    | c :: s, h =>
      simp only [List.length_cons] at h
      by_cases h1 : c = c! '\\'
      · subst h1
        cases s with
        | nil => exact ⟨_, _, _, .backslash⟩
        | cons e t =>
          obtain ⟨l, o, r, h⟩ := ih t d (by simp at h; omega)
          exact ⟨_, _, _, .esc h⟩
      by_cases h2 : c = c! '('
      · subst h2
        obtain ⟨l, o, r, h⟩ := ih s (d + 1) (by omega)
        exact ⟨_, _, _, .opened h⟩
      by_cases h3 : c = c! ')'
      · subst h3
        obtain ⟨l, o, r, h⟩ := ih s (d - 1) (by omega)
        exact ⟨_, _, _, .closed h⟩
      obtain ⟨l, o, r, hs⟩ := ih s d (by omega)
      by_cases hd : 0 < d
      · exact ⟨_, _, _, .inside hd (by simp [h1, h2, h3]) hs⟩
      by_cases hc : c ∈ b!"=<>!%"
      · obtain ⟨o, r, ho⟩ := startsOp_exists (s := s) hc
        exact ⟨_, _, _, .op (by omega) ho⟩
      · refine ⟨_, _, _, .other (by omega) ?_ hs⟩
        simp only [List.mem_cons, List.not_mem_nil, or_false, not_or] at hc ⊢
        exact ⟨h1, h2, h3, hc⟩

theorem startsOp_trimmed {s o r : Bytes} (h : StartsOp s o r) : Trimmed o := by
  cases h with
  | percent => exact ⟨by simp, by simp⟩
  | compareEq hc =>
    simp only [List.mem_cons, List.not_mem_nil, or_false] at hc
    rcases hc with rfl | rfl | rfl <;> exact ⟨by simp, by simp⟩
  | compare hc _ =>
    simp only [List.mem_cons, List.not_mem_nil, or_false] at hc
    rcases hc with rfl | rfl | rfl <;> exact ⟨by simp, by simp⟩
  | notTwo hd =>
    simp only [List.mem_cons, List.not_mem_nil, or_false] at hd
    rcases hd with rfl | rfl <;> exact ⟨by simp, by simp⟩
  | notOne => exact ⟨by simp, by simp⟩

theorem cutAtOp_op {d : Int} {s l o r : Bytes} (h : CutAtOp d s l o r) : Trimmed o := by
  induction h with
  | none => exact ⟨by simp, by simp⟩
  | backslash => exact ⟨by simp, by simp⟩
  | esc _ ih => exact ih
  | opened _ ih => exact ih
  | closed _ ih => exact ih
  | inside _ _ _ ih => exact ih
  | other _ _ _ ih => exact ih
  | op _ h => exact startsOp_trimmed h

/-- The text inside a query, if the component is one. -/
theorem queryInner_cases (k : Bytes) : (∃ q h, (h = [] ∨ h = b!"#") ∧ k = b!"#(" ++ q ++ b!")" ++ h ∧ queryInner k = .ok (some q)) ∨
    ((∀ q, k ≠ b!"#(" ++ q ++ b!")" ∧ k ≠ b!"#(" ++ q ++ b!")#") ∧ queryInner k = .ok none) := by
  by_cases h1 : ∃ q, k = b!"#(" ++ q ++ b!")"
  · obtain ⟨q, rfl⟩ := h1
    refine .inl ⟨q, [], .inl rfl, by simp, ?_⟩
    have := queryInner_eq q false
    simpa using this
  by_cases h2 : ∃ q, k = b!"#(" ++ q ++ b!")#"
  · obtain ⟨q, rfl⟩ := h2
    refine .inl ⟨q, b!"#", .inr rfl, by simp, ?_⟩
    have := queryInner_eq q true
    simpa using this
  refine .inr ⟨fun q => ⟨fun h => h1 ⟨q, h⟩, fun h => h2 ⟨q, h⟩⟩, ?_⟩
  obtain ⟨x, hx, hx'⟩ := queryInner_ok k
  cases x with
  | none => exact hx
  | some q =>
    exfalso
    match k, h1, h2, hx with
    | [], _, _, hx => simp [queryInner] at hx
    | [_], _, _, hx => simp [queryInner] at hx
    | a :: b :: t, h1, h2, hx =>
      generalize hk : a :: b :: t = k at *
      have hA : At k 0 (a :: b :: t) := by rw [← hk]; exact At.zero _
      unfold queryInner at hx
      rw [if_neg (by rw [← hk]; simp), hA.idx, hA.cons.idx] at hx
      simp only [ok_bind] at hx
      by_cases ha : a = c! '#'
      case neg => simp [ha] at hx
      by_cases hb : b = c! '('
      case neg => simp [ha, hb] at hx
      subst ha hb
      rw [if_neg (by simp), if_neg (by simp)] at hx
      rcases List.eq_nil_or_concat t with rfl | ⟨t', z, rfl⟩
      · subst hk; cases hx
      have hz : At k (k.length - 1) [z] := by
        have := hA.cons.cons
        rw [List.concat_eq_append] at this
        have h3 := this.append
        have : 0 + 1 + 1 + t'.length = k.length - 1 := by rw [← hk]; simp; omega
        rwa [this] at h3
      rw [hz.idx] at hx
      simp only [ok_bind] at hx
      by_cases hz1 : z = c! '#'
      · subst hz1
        rw [if_pos rfl] at hx
        rcases List.eq_nil_or_concat t' with rfl | ⟨t2, y, rfl⟩
        · subst hk; cases hx
        have hy : At k (k.length - 2) (y :: [c! '#']) := by
          have := hA.cons.cons
          rw [List.concat_eq_append, List.concat_eq_append, List.append_assoc] at this
          have h3 := this.append
          have : 0 + 1 + 1 + t2.length = k.length - 2 := by rw [← hk]; simp; omega
          rwa [this] at h3
        rw [hy.idx] at hx
        simp only [ok_bind] at hx
        by_cases hy1 : y = c! ')'
        · subst hy1; exact h2 ⟨t2, by rw [← hk]; simp⟩
        · rw [if_pos hy1] at hx; cases hx
      · rw [if_neg hz1] at hx
        by_cases hz2 : z = c! ')'
        · subst hz2; exact h1 ⟨t', by rw [← hk]; simp⟩
        · rw [if_pos hz2] at hx; cases hx

theorem queryParts_cut {p : Path} {q s l o r lh rh : Bytes} (hi : queryInner p.comp = .ok (some q)) (hs : TrimOf q s)
    (hc : CutAtOp 0 s l o r) (hl : TrimOf l lh) (hr : TrimOf r rh) : p.queryParts = .ok (lh, if o = b!"==" then b!"=" else o, rh) := by
  obtain ⟨hsp, hnil⟩ := cutAtOp_split hc
  unfold Path.queryParts
  rw [hi]
  simp only [ok_bind]
  have hts : Trimmed s := by obtain ⟨_, _, _, _, _, h⟩ := hs; exact h
  rw [trimOf_trim hs, queryOpLoop_cut hc (At.zero _) (by omega)]
  simp only [ok_bind]
  by_cases ho : o = []
  · have := hnil ho
    subst ho this
    simp only [List.append_nil] at hsp
    subst hsp
    have e1 : s = lh := (trim_id hts).symm.trans (trimOf_trim hl)
    have e2 : rh = [] := (trimOf_trim hr).symm
    subst e1 e2
    rfl
  · rw [if_neg ho]
    simp only
    have hA : At s 0 (l ++ (o ++ r)) := hsp ▸ At.zero _
    rw [hA.slice' (by simp), hA.append.slice' rfl, hA.append.append.sliceFrom]
    simp only [ok_bind]
    rw [trimOf_trim hl, trimOf_trim hr, trim_id (cutAtOp_op hc)]
    split
    · rename_i h; rw [h]; rfl
    · rfl

theorem queryCut_eval {p : Path} {lh op rh : Bytes} (h : QueryCut p.comp lh op rh) : p.queryParts = .ok (lh, op, rh) := by
  generalize hk : p.comp = k at h
  cases h with
  | @query q h s l o r lh rh hh hs hc hl hr =>
    refine queryParts_cut ?_ hs hc hl hr
    rw [hk]
    rcases hh with rfl | rfl
    · have := queryInner_eq q false; simpa using this
    · have := queryInner_eq q true; simpa using this
  | none hn =>
    unfold Path.queryParts
    rcases queryInner_cases k with ⟨q, h, hh, e, _⟩ | ⟨_, e⟩
    · rcases hh with rfl | rfl
      · exact absurd (by simpa using e) (hn q).1
      · exact absurd (by simpa using e) (hn q).2
    · rw [hk, e]; rfl

theorem queryCut_exists (k : Bytes) : ∃ lh op rh, QueryCut k lh op rh := by
  rcases queryInner_cases k with ⟨q, h, hh, rfl, _⟩ | ⟨hn, _⟩
  · obtain ⟨s, hs⟩ := trimOf_exists q
    obtain ⟨l, o, r, hc⟩ := cutAtOp_exists _ s 0 (Nat.le_refl _)
    obtain ⟨lh, hl⟩ := trimOf_exists l
    obtain ⟨rh, hr⟩ := trimOf_exists r
    exact ⟨_, _, _, .query hh hs hc hl hr⟩
  · exact ⟨_, _, _, .none hn⟩

theorem queryCut_pParts {p : Path} {lh op rh : Bytes} (h : QueryCut p.comp lh op rh) : pParts p = (lh, op, rh) := by
  unfold pParts; rw [queryCut_eval h]

/-! ### Two queries with the same parts -/

/-- The same value, and the same is left of the path. -/
def SameTail (x y : Value × Path) : Prop := x.1 = y.1 ∧ x.2.sep = y.2.sep ∧ x.2.extra = y.2.extra

theorem finish_tail {x y : Value × Path} (h : SameTail x y) : finish x = finish y := by
  unfold finish Path.more; rw [h.1, h.2.1, h.2.2]

theorem pGroup_tail {p q : Path} (hs : p.sep = q.sep) (he : p.extra = q.extra) :
    (pGroup p).1 = (pGroup q).1 ∧ (pGroup p).2.sep = (pGroup q).2.sep ∧ (pGroup p).2.extra = (pGroup q).2.extra := by
  by_cases h : p.sep = c! '.'
  · have e : p.nextGroup = q.nextGroup := by
      unfold Path.nextGroup
      rw [if_neg (by simpa using h), if_neg (by rw [← hs]; simpa using h), he]
    have e2 : pGroup p = pGroup q := by
      have hp := nextGroup_eq p
      rw [e, nextGroup_eq q] at hp
      exact (Except.ok.inj hp).symm
    rw [e2]
    exact ⟨rfl, rfl, rfl⟩
  · rw [pGroup_no p h, pGroup_no q (by rw [← hs]; exact h)]
    exact ⟨rfl, hs, he⟩

theorem gArrVals_query {p q : Path} {a b h : Bytes} (hp : p.comp = b!"#(" ++ a ++ b!")" ++ h) (hq : q.comp = b!"#(" ++ b ++ b!")" ++ h)
    (hs : p.sep = q.sep) (he : p.extra = q.extra) (hparts : pParts p = pParts q) (vals : List Value) :
    RelRes SameTail (gArrVals get p vals) (gArrVals get q vals) := by
  obtain ⟨g1, g2, g3⟩ := pGroup_tail hs he
  have hself : ∀ v, SameTail (v, p) (v, q) := fun v => ⟨rfl, hs, he⟩
  have hl : ∀ x : Bytes, (c! '(' :: (x ++ (c! ')' :: h))).getLast? = (c! ')' :: h).getLast? := by
    intro x
    rw [← List.cons_append, List.getLast?_append, List.getLast?_cons]
    rfl
  unfold gArrVals
  simp only [hp, hq, hparts, List.cons_append, List.nil_append, List.append_assoc, if_true, hl]
  have hne : ∀ x : Bytes, ¬ c! '(' :: (x ++ c! ')' :: h) = [] := fun x => by simp
  rw [if_neg (hne a), if_neg (hne b)]
  by_cases hx : (c! ')' :: h).getLast? = some c! '#'
  · rw [if_pos hx, if_pos hx, hs, g1]
    exact relRes_same_bind fun l => .ok ⟨rfl, g2, g3⟩
  · rw [if_neg hx, if_neg hx]
    exact relRes_same_bind fun l => .ok (hself _)

theorem gStart_query {p q : Path} {a b h : Bytes} (hp : p.comp = b!"#(" ++ a ++ b!")" ++ h) (hq : q.comp = b!"#(" ++ b ++ b!")" ++ h)
    (hs : p.sep = q.sep) (he : p.extra = q.extra) (hparts : pParts p = pParts q) (L : Nat) :
    ∀ s : Bytes, (∀ w r, Blank w → s ≠ w ++ c! '{' :: r) → RelRes SameTail (gStart get L p s) (gStart get L q s) := by
  intro s
  induction s with
  | nil => exact fun _ => .ok ⟨rfl, hs, he⟩
  | cons c r ih =>
    intro hn
    rw [gStart, gStart]
    split
    · rename_i hc
      refine ih fun w t hw h => hn (c :: w) t ?_ (by rw [h]; rfl)
      intro x hx
      rcases List.mem_cons.1 hx with rfl | hx
      · exact hc
      · exact hw x hx
    · have hc : ¬ c = c! '{' := by rintro rfl; exact hn [] r (by simp [Blank]) rfl
      rw [if_neg hc, if_neg hc]
      split
      · exact gArrVals_query hp hq hs he hparts _
      · exact .ok ⟨rfl, hs, he⟩

theorem relRes_finish {a b : Res (Value × Path)} (h : RelRes SameTail a b) : (a >>= finish) = (b >>= finish) := by
  cases h with
  | ok h => exact finish_tail h
  | error e => rfl

end Gjson
