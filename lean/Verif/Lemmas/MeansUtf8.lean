import Verif.Lemmas.Means
import Verif.Lemmas.Kept
/-
The rules of `Spec.Means` keep UTF-8.
-/
namespace Gjson
open Spec

theorem Spec.IsUtf8.cons {c : UInt8} {r : Bytes} (hc : c < 0x80) (h : IsUtf8 r) : IsUtf8 (c :: r) := (utf8_cons hc).2 h

/-! ### Layouts -/

theorem utf8_copies {t : Bytes} (h : IsUtf8 t) : ∀ n, IsUtf8 (copies t n)
  | 0 => .nil
  | n + 1 => h.append (utf8_copies h n)

/-- The prefix and indent are UTF-8. -/
def StyleUtf8 (s : Style) : Prop := IsUtf8 s.pfx ∧ IsUtf8 s.indent

theorem utf8_pad {s : Style} (h : StyleUtf8 s) (n : Nat) : IsUtf8 (s.pad n) := h.1.append (utf8_copies h.2 n)

theorem utf8_commaLines : ∀ {ps : List Bytes}, (∀ p ∈ ps, IsUtf8 p) → IsUtf8 (commaLines ps)
  | [], _ => .nil
  | [p], h => h p (by simp)
  | p :: q :: r, h => by
    have := utf8_commaLines (ps := q :: r) (fun x hx => h x (by simp [hx]))
    exact (h p (by simp)).append ((ascii_utf8 (a := b!",\n") (by decide)).append this)

theorem utf8_block {s : Style} (h : StyleUtf8 s) (n : Nat) {o c : UInt8} (ho : o < 0x80) (hc : c < 0x80) {ps : List Bytes}
    (hp : ∀ p ∈ ps, IsUtf8 p) : IsUtf8 (s.block n o c ps) := by
  cases ps with
  | nil => exact .cons ho (.ascii hc)
  | cons p r =>
    refine .cons ho (.cons (by decide) ((utf8_commaLines ?_).append (.cons (by decide) ((utf8_pad h n).append (.ascii hc)))))
    intro q hq
    obtain ⟨x, hx, rfl⟩ := List.mem_map.1 hq
    exact (utf8_pad h _).append (hp x hx)

mutual
theorem utf8_line : ∀ {d : Doc} {p : Bytes}, utf8Doc d → d.line = some p → IsUtf8 p
  | .leaf _, _, hd, h => by
    rw [Doc.line] at h
    cases h
    exact hd
  | .arr es, p, hd, h => by
    rw [Doc.line, Option.map_eq_some_iff] at h
    obtain ⟨q, h1, rfl⟩ := h
    exact .cons (by decide) ((utf8_lineElems hd h1).append (.ascii (by decide)))
  | .obj _, _, _, h => by rw [Doc.line] at h; cases h
theorem utf8_lineElems : ∀ {es : List Doc} {p : Bytes}, utf8Docs es → lineElems es = some p → IsUtf8 p
  | [], _, _, h => by
    rw [lineElems] at h
    cases h
    exact .nil
  | [d], _, hd, h => utf8_line hd.1 (by rwa [lineElems] at h)
  | d :: e :: r, p, hd, h => by
    rw [lineElems, Option.bind_eq_some_iff] at h
    obtain ⟨x, h1, h2⟩ := h
    rw [Option.map_eq_some_iff] at h2
    obtain ⟨y, h2, rfl⟩ := h2
    exact (utf8_line hd.1 h1).append ((ascii_utf8 (a := b!", ") (by decide)).append (utf8_lineElems hd.2 h2))
end

mutual
theorem utf8_layout {s : Style} (h : StyleUtf8 s) : ∀ (n col : Nat) (d : Doc), utf8Doc d → IsUtf8 (d.layout s n col)
  | _, _, .leaf t, hd => by rw [Doc.layout]; exact hd
  | n, col, .arr es, hd => by
    rw [Doc.layout]
    have hb := utf8_block h n (o := c! '[') (c := c! ']') (by decide) (by decide) (utf8_layElems h n ((s.pad (n + 1)).length + 1) es hd)
    split
    · rename_i p hp
      split
      · exact utf8_line hd hp
      · exact hb
    · exact hb
  | n, col, .obj ms, hd => by
    rw [Doc.layout]
    exact utf8_block h n (by decide) (by decide) (utf8_layMembers h n ms hd)
theorem utf8_layElems {s : Style} (h : StyleUtf8 s) : ∀ (n col : Nat) (es : List Doc), utf8Docs es → ∀ p ∈ layElems s n col es, IsUtf8 p
  | _, _, [], _ => by rw [layElems]; simp
  | n, col, d :: r, hd => by
    rw [layElems, List.forall_mem_cons]
    exact ⟨utf8_layout h _ _ d hd.1, utf8_layElems h n _ r hd.2⟩
theorem utf8_layMembers {s : Style} (h : StyleUtf8 s) : ∀ (n : Nat) (ms : List (Bytes × Doc)), utf8Mems ms → ∀ p ∈ layMembers s n ms, IsUtf8 p
  | _, [], _ => by rw [layMembers]; simp
  | n, (k, d) :: r, hd => by
    rw [layMembers, List.forall_mem_cons]
    exact ⟨hd.1.1.append ((ascii_utf8 (a := b!": ") (by decide)).append (utf8_layout h _ _ d hd.1.2)), utf8_layMembers h n r hd.2⟩
end

mutual
theorem utf8_toks : ∀ d : Doc, utf8Doc d → ∀ t ∈ d.toks, IsUtf8 t
  | .leaf t, hd => by rw [Doc.toks]; simp only [List.mem_singleton, forall_eq]; exact hd
  | .arr es, hd => by
    rw [Doc.toks, List.forall_mem_cons, List.forall_mem_append]
    exact ⟨.ascii (by decide), utf8_elemToks es hd, by simpa using .ascii (by decide)⟩
  | .obj ms, hd => by
    rw [Doc.toks, List.forall_mem_cons, List.forall_mem_append]
    exact ⟨.ascii (by decide), utf8_memToks ms hd, by simpa using .ascii (by decide)⟩
theorem utf8_elemToks : ∀ es : List Doc, utf8Docs es → ∀ t ∈ elemToks es, IsUtf8 t
  | [], _ => by rw [elemToks]; simp
  | [d], hd => by rw [elemToks]; exact utf8_toks d hd.1
  | d :: e :: r, hd => by
    rw [elemToks, List.forall_mem_append, List.forall_mem_cons]
    exact ⟨utf8_toks d hd.1, .ascii (by decide), utf8_elemToks (e :: r) hd.2⟩
theorem utf8_memToks : ∀ ms : List (Bytes × Doc), utf8Mems ms → ∀ t ∈ memToks ms, IsUtf8 t
  | [], _ => by rw [memToks]; simp
  | [(k, d)], hd => by
    rw [memToks, List.forall_mem_cons, List.forall_mem_cons]
    exact ⟨hd.1.1, .ascii (by decide), utf8_toks d hd.1.2⟩
  | (k, d) :: e :: r, hd => by
    rw [memToks, List.forall_mem_cons, List.forall_mem_cons, List.forall_mem_append, List.forall_mem_cons]
    exact ⟨hd.1.1, .ascii (by decide), utf8_toks d hd.1.2, .ascii (by decide), utf8_memToks (e :: r) hd.2⟩
end

theorem utf8_flatten : ∀ {ts : List Bytes}, (∀ t ∈ ts, IsUtf8 t) → IsUtf8 ts.flatten
  | [], _ => .nil
  | t :: r, h => (h t (by simp)).append (utf8_flatten fun x hx => h x (by simp [hx]))

theorem utf8_tight (d : Doc) (h : utf8Doc d) : IsUtf8 d.tight := utf8_flatten (utf8_toks d h)

theorem utf8_restElems : ∀ es : List Doc, utf8Docs es → IsUtf8 (restElems es)
  | [], _ => .ascii (by decide)
  | d :: r, hd => .cons (by decide) ((utf8_tight d hd.1).append (utf8_restElems r hd.2))

theorem utf8_restMembers : ∀ ms : List (Bytes × Doc), utf8Mems ms → IsUtf8 (restMembers ms)
  | [], _ => .ascii (by decide)
  | (k, d) :: r, hd => .cons (by decide) (hd.1.1.append (.cons (by decide) ((utf8_tight d hd.1.2).append (utf8_restMembers r hd.2))))

mutual
theorem utf8_cutLine : ∀ {k : Nat} {rest : Bytes} {d : Doc} {p : Bytes}, utf8Doc d → IsUtf8 rest → d.cutLine k rest = some p → IsUtf8 p
  | _, _, .leaf _, _, _, _, h => by simp [Doc.cutLine] at h
  | 0, _, .arr es, _, hd, hr, h => by
    simp only [Doc.cutLine, Option.some.injEq] at h
    subst h
    exact (utf8_tight _ hd).append hr
  | 0, _, .obj es, _, hd, hr, h => by
    simp only [Doc.cutLine, Option.some.injEq] at h
    subst h
    exact (utf8_tight _ hd).append hr
  | k + 1, rest, .arr es, _, hd, hr, h => by
    simp only [Doc.cutLine, Option.map_eq_some_iff] at h
    obtain ⟨q, h1, rfl⟩ := h
    exact .cons (by decide) (utf8_cutLineElems hd hr h1)
  | _ + 1, _, .obj _, _, _, _, h => by simp [Doc.cutLine] at h
theorem utf8_cutLineElems : ∀ {k : Nat} {rest : Bytes} {es : List Doc} {p : Bytes}, utf8Docs es → IsUtf8 rest → cutLineElems k rest es = some p → IsUtf8 p
  | _, _, [], _, _, _, h => by simp [cutLineElems] at h
  | k, rest, d :: r, p, hd, hr, h => by
    rw [cutLineElems] at h
    split at h
    · rw [Option.bind_eq_some_iff] at h
      obtain ⟨x, h1, h2⟩ := h
      rw [Option.map_eq_some_iff] at h2
      obtain ⟨y, h2, rfl⟩ := h2
      exact (utf8_line hd.1 h1).append ((ascii_utf8 (a := b!", ") (by decide)).append (utf8_cutLineElems hd.2 hr h2))
    · exact utf8_cutLine hd.1 ((utf8_restElems r hd.2).append hr) h
end

theorem utf8_sortIf {d : Doc} (b : Bool) (h : utf8Doc d) : utf8Doc (if b then d.sort else d) := by
  cases b
  · exact h
  · exact (utf8_sort d).2 h

mutual
theorem utf8_cut {s : Style} (h : StyleUtf8 s) (b : Bool) : ∀ (n col k : Nat) (rest : Bytes) (d : Doc), utf8Doc d → IsUtf8 rest →
    IsUtf8 (d.cut s b n col k rest)
  | _, _, _, _, .leaf t, hd, hr => by rw [Doc.cut]; exact IsUtf8.append hd hr
  | _, _, 0, _, .arr es, hd, hr => by simp only [Doc.cut]; exact (utf8_tight _ hd).append hr
  | _, _, 0, _, .obj ms, hd, hr => by simp only [Doc.cut]; exact (utf8_tight _ hd).append hr
  | n, col, k + 1, rest, .arr es, hd, hr => by
    have hb := IsUtf8.cons (c := c! '[') (by decide) (utf8_cutElems h b n ((s.pad (n + 1)).length + 1) k rest es hd hr)
    rw [Doc.cut]
    split
    · rename_i p hp
      split
      · exact utf8_cutLine hd hr hp
      · exact hb
    · exact hb
  | n, col, k + 1, rest, .obj ms, hd, hr => by
    rw [Doc.cut]
    exact .cons (by decide) (utf8_cutMembers h b n k rest ms hd hr)
theorem utf8_cutElems {s : Style} (h : StyleUtf8 s) (b : Bool) : ∀ (n col k : Nat) (rest : Bytes) (es : List Doc), utf8Docs es → IsUtf8 rest →
    IsUtf8 (cutElems s b n col k rest es)
  | _, _, _, _, [], _, hr => by rw [cutElems]; exact hr
  | n, col, k, rest, d :: r, hd, hr => by
    rw [cutElems]
    split
    · exact .cons (by decide) ((utf8_pad h _).append ((utf8_layout h _ _ _ (utf8_sortIf b hd.1)).append
        (.cons (by decide) (utf8_cutElems h b n _ k rest r hd.2 hr))))
    · exact .cons (by decide) ((utf8_pad h _).append (utf8_cut h b _ _ k _ d hd.1 ((utf8_restElems r hd.2).append hr)))
theorem utf8_cutMembers {s : Style} (h : StyleUtf8 s) (b : Bool) : ∀ (n k : Nat) (rest : Bytes) (ms : List (Bytes × Doc)), utf8Mems ms → IsUtf8 rest →
    IsUtf8 (cutMembers s b n k rest ms)
  | _, _, _, [], _, hr => by rw [cutMembers]; exact hr
  | n, k, rest, (key, d) :: r, hd, hr => by
    rw [cutMembers]
    split
    · exact .cons (by decide) ((utf8_pad h _).append (hd.1.1.append ((ascii_utf8 (a := b!": ") (by decide)).append
        ((utf8_layout h _ _ _ (utf8_sortIf b hd.1.2)).append (.cons (by decide) (utf8_cutMembers h b n k rest r hd.2 hr))))))
    · exact .cons (by decide) ((utf8_pad h _).append (hd.1.1.append ((ascii_utf8 (a := b!": ") (by decide)).append
        (utf8_cut h b _ _ k _ d hd.1.2 ((utf8_restMembers r hd.2).append hr)))))
end

theorem utf8_laid {s : Style} (h : StyleUtf8 s) (b : Bool) (k : Nat) {d : Doc} (hd : utf8Doc d) : IsUtf8 (d.laid s b k) := by
  unfold Doc.laid
  split
  · exact utf8_layout h _ _ _ (utf8_sortIf b hd)
  · exact utf8_cut h b _ _ k _ d hd .nil

/-! ### Values -/

theorem utf8_content {l s : Bytes} (h : Content l s) (hl : IsUtf8 l) : IsUtf8 s := by
  obtain ⟨b, hb, rfl, hs⟩ := h
  have := unesc_utf8 _ b (Nat.le_refl _) hb ((hl.tail_ascii (by decide)).left (by decide))
  rwa [shown_unesc hs] at this

theorem utf8_strVal {x s : Bytes} (h : StrVal x s) (hx : IsUtf8 x) : IsUtf8 s := by
  cases h with
  | none => exact .nil
  | null => exact .nil
  | str h => exact utf8_content h hx
  | num _ => exact hx
  | bool b => exact hx
  | cont _ => exact hx

theorem utf8_kept {out x : Bytes} (h : Kept out x) (ho : IsUtf8 out) : IsUtf8 x := by
  cases h with
  | blank _ => exact .nil
  | scalar hv _ _ hp => exact (utf8_padded hp hv).1 ho
  | cont hw _ => exact (utf8_pre_ws hw).1 ho

theorem utf8_lines {doc : Bytes} {vs : List Bytes} (h : JsonLines doc vs) (hu : IsUtf8 doc) : ∀ v ∈ vs, IsUtf8 v := by
  induction h with
  | nil _ => simp
  | last hw hv => simpa using (utf8_pre_ws hw).1 hu
  | cons hw hv hc _ ih =>
    have := (utf8_pre_value hv).1 ((utf8_pre_ws hw).1 hu)
    rw [List.forall_mem_cons]
    exact ⟨this.1, ih (this.2.tail_ascii (by unfold IsWs at hc; grind))⟩

theorem utf8_inside {v : Bytes} (hv : IsValue v) (hk : kindOf v = .object ∨ kindOf v = .array) (h : IsUtf8 v) : IsUtf8 (inside v) := by
  have hf : ∀ {o c : UInt8} {b : Bytes}, o < 0x80 → c < 0x80 → v = o :: (b ++ [c]) → IsUtf8 (inside v) := by
    intro o c b ho hc e
    subst e
    have : inside (o :: (b ++ [c])) = b := by simp [inside]
    rw [this]
    exact (h.tail_ascii ho).left hc
  rcases hk with hk | hk
  · obtain ⟨kvs, ⟨_, _, e, _⟩ | ⟨_, _, _, _, e, _⟩⟩ := C28_covers v hv hk
    · exact hf (by decide) (by decide) e
    · exact hf (by decide) (by decide) e
  · obtain ⟨kvs, ⟨_, _, e, _⟩ | ⟨_, _, _, _, e, _⟩⟩ := C27_covers v hv hk
    · exact hf (by decide) (by decide) e
    · exact hf (by decide) (by decide) e

/-- The values among the entries of a search are UTF-8. -/
def SeenUtf8 (es : List Seen) : Prop := ∀ kl x, Seen.member kl x ∈ es → IsUtf8 x

theorem utf8_met {vs : List Bytes} {es : List Seen} (h : Spec.Met vs es) (hu : ∀ v ∈ vs, IsUtf8 v) : SeenUtf8 es := by
  induction h with
  | nil => intro _ _ h; cases h
  | str _ => intro _ _ h; simp at h
  | scalar _ _ _ _ ih => exact ih fun v hv => hu v (by simp [hv])
  | obj ho =>
    intro kl x hx
    simp only [List.mem_append, List.mem_map, Seen.member.injEq, List.mem_singleton, reduceCtorEq, or_false] at hx
    obtain ⟨m, hm, rfl, rfl⟩ := hx
    exact ((utf8_isObject ho).1 (hu _ (by simp)) _ hm).2
  | arr ha _ ih =>
    refine ih fun v hv => ?_
    rcases List.mem_append.1 hv with h | h
    · exact (utf8_isArray ha).1 (hu _ (by simp)) v h
    · exact hu v (by simp [h])

theorem utf8_deep {vs ls : List Bytes} (h : DeepFlattened vs ls) (hu : ∀ v ∈ vs, IsUtf8 v) : ∀ v ∈ ls, IsUtf8 v := by
  induction h with
  | nil => simp
  | keep _ _ ih =>
    rw [List.forall_mem_cons] at hu ⊢
    exact ⟨hu.1, ih hu.2⟩
  | splice ha _ _ ih1 ih2 =>
    rw [List.forall_mem_cons] at hu
    rw [List.forall_mem_append]
    exact ⟨ih1 ((utf8_isArray ha).1 hu.1), ih2 hu.2⟩

theorem utf8_objectsOf {vs : List Bytes} {mss : List (List (Bytes × Bytes))} (h : ObjectsOf vs mss) (hu : ∀ v ∈ vs, IsUtf8 v) :
    ∀ m ∈ mss.flatten, IsUtf8 m.1 ∧ IsUtf8 m.2 := by
  induction h with
  | nil => simp
  | skip _ _ ih => exact ih fun v hv => hu v (by simp [hv])
  | take ho _ ih =>
    rw [List.forall_mem_cons] at hu
    rw [List.flatten_cons, List.forall_mem_append]
    exact ⟨(utf8_isObject ho).1 hu.1, ih hu.2⟩

theorem utf8_putMember {dec : Bytes → Bytes} {m : Bytes × Bytes} (hm : IsUtf8 m.1 ∧ IsUtf8 m.2) :
    ∀ {ms : List (Bytes × Bytes)}, (∀ n ∈ ms, IsUtf8 n.1 ∧ IsUtf8 n.2) → ∀ n ∈ putMember dec m ms, IsUtf8 n.1 ∧ IsUtf8 n.2
  | [], _ => by simpa [putMember] using hm
  | a :: r, h => by
    rw [List.forall_mem_cons] at h
    rw [putMember]
    split <;> rw [List.forall_mem_cons]
    · exact ⟨⟨h.1.1, hm.2⟩, h.2⟩
    · exact ⟨h.1, utf8_putMember hm h.2⟩

theorem utf8_merge {dec : Bytes → Bytes} {ms : List (Bytes × Bytes)} (h : ∀ n ∈ ms, IsUtf8 n.1 ∧ IsUtf8 n.2) :
    ∀ n ∈ mergeMembers dec ms, IsUtf8 n.1 ∧ IsUtf8 n.2 := by
  have : ∀ (ms acc : List (Bytes × Bytes)), (∀ n ∈ ms, IsUtf8 n.1 ∧ IsUtf8 n.2) → (∀ n ∈ acc, IsUtf8 n.1 ∧ IsUtf8 n.2) →
      ∀ n ∈ ms.foldl (fun acc m => putMember dec m acc) acc, IsUtf8 n.1 ∧ IsUtf8 n.2 := by
    intro ms
    induction ms with
    | nil => intro acc _ h; exact h
    | cons m r ih =>
      intro acc h ha
      rw [List.forall_mem_cons] at h
      exact ih _ h.2 (utf8_putMember h.1 ha)
  exact this ms [] h (by simp)

/-! ### Paths -/

/-- What follows a component: nothing, or a separator and more. -/
theorem utf8_then {x t r a : Bytes} (h : Then x t r) (hu : IsUtf8 (a ++ t)) : IsUtf8 a ∧ IsUtf8 t := by
  cases h with
  | done => exact ⟨by simpa using hu, .nil⟩
  | dot _ => exact ⟨hu.left (by decide), hu.right (by decide)⟩
  | pipe _ => exact ⟨hu.left (by decide), hu.right (by decide)⟩

theorem utf8_arg {n a m : Bytes} (h : ModCall n a m) (hm : IsUtf8 m) : IsUtf8 a := by
  cases h with
  | bare _ => exact .nil
  | plain _ _ _ _ => exact ((hm.tail_ascii (by decide)).right (by decide)).tail_ascii (by decide)
  | json _ _ _ => exact ((hm.tail_ascii (by decide)).right (by decide)).tail_ascii (by decide)

theorem utf8_quoted {k : Bytes} (h : IsUtf8 k) : IsUtf8 (Spec.quoted k) := by
  rw [← jsonString_quoted]
  exact utf8_jsonString h

theorem utf8_entry {t k p : Bytes} (h : Entry t k p) (hu : IsUtf8 t) : IsUtf8 k ∧ IsUtf8 p := by
  cases h with
  | named _ _ => exact ⟨hu.left (by decide), (hu.right (by decide)).tail_ascii (by decide)⟩
  | last _ hl _ =>
    refine ⟨?_, hu⟩
    cases hl with
    | whole _ => exact hu
    | after hs _ _ => rcases hs with rfl | rfl <;> exact (hu.right (by decide)).tail_ascii (by decide)
  | other _ _ _ => exact ⟨by decide +kernel, hu⟩

theorem utf8_splitComma : ∀ {ts : List Bytes} {c : UInt8} {t : Bytes}, c < 0x80 → IsUtf8 (commaSep ts ++ c :: t) →
    (∀ x ∈ ts, IsUtf8 x) ∧ IsUtf8 t
  | [], c, t, hc, h => ⟨by simp, h.tail_ascii hc⟩
  | [x], c, t, hc, h => ⟨by simpa [commaSep] using h.left hc, (h.right hc).tail_ascii hc⟩
  | x :: y :: r, c, t, hc, h => by
    rw [commaSep, List.append_assoc, List.cons_append] at h
    have := utf8_splitComma (ts := y :: r) hc ((h.right (by decide)).tail_ascii (by decide))
    rw [List.forall_mem_cons]
    exact ⟨⟨h.left (by decide), this.1⟩, this.2⟩

theorem utf8_entries {ts : List Bytes} {es : List (Bytes × Bytes)} (h : Aligned (fun t e => Entry t e.1 e.2) ts es)
    (hu : ∀ t ∈ ts, IsUtf8 t) : ∀ e ∈ es, IsUtf8 e.1 ∧ IsUtf8 e.2 := by
  induction h with
  | nil => simp
  | cons h _ ih =>
    rw [List.forall_mem_cons] at hu ⊢
    exact ⟨utf8_entry h hu.1, ih hu.2⟩

theorem utf8_numeral (n : Nat) : IsUtf8 (numeral n) := by
  rw [← natDec_eq]
  exact natDec_utf8 n

theorem utf8_before {p t : Bytes} (h : ∀ c ∈ t.head?, c = c! '|') (hu : IsUtf8 (p ++ t)) : IsUtf8 p ∧ IsUtf8 t := by
  cases t with
  | nil => exact ⟨by simpa using hu, .nil⟩
  | cons c r =>
    have := h c (by simp)
    subst this
    exact ⟨hu.left (by decide), hu.right (by decide)⟩

theorem seeks_value {v path r : Bytes} {b : Bool} (h : Seeks v path r b) : IsValue v := by
  cases h with
  | obj ho _ _ => exact IsObject.isValue ho
  | arr ha _ => exact IsArray.isValue ha

mutual
/-- Of a UTF-8 text and path, the rules make UTF-8. -/
theorem means_utf8 {doc path r : Bytes} (h : Means doc path r) (hd : IsUtf8 doc) (hp : IsUtf8 path) : IsUtf8 r :=
  match h with
  | .look hq hs => seeks_utf8 hs ((utf8_padded hq (seeks_value hs)).1 hd) hp
  | .empty _ ht => then_utf8 ht .nil (utf8_then ht hp).2
  | .scalar _ _ _ _ _ ht => then_utf8 ht .nil (utf8_then ht hp).2
  | .lines hj hr => rows_utf8 hr (utf8_lines hj hd) ((hp.tail_ascii (by decide)).tail_ascii (by decide))
  | .call hm hw hk ht =>
    then_utf8 ht (utf8_kept hk (writes_utf8 hw hd (utf8_arg hm (utf8_then ht hp).1))) (utf8_then ht hp).2
  | .array (es := es) (f := f) h1 _ h3 ht =>
    have hs := utf8_splitComma (by decide) (hp.tail_ascii (by decide))
    have he := utf8_entries h1 hs.1
    have hr : ∀ e ∈ es, IsUtf8 (f e.2) := fun e hm => means_utf8 (h3 e hm) hd (he e hm).2
    then_utf8 ht (utf8_arrayText (by
      intro x hx
      obtain ⟨e, h4, rfl⟩ := List.mem_map.1 (List.mem_filter.1 hx).1
      exact hr e h4)) hs.2
  | .object (es := es) (f := f) h1 _ h3 ht =>
    have hs := utf8_splitComma (by decide) (hp.tail_ascii (by decide))
    have he := utf8_entries h1 hs.1
    have hr : ∀ e ∈ es, IsUtf8 (f e.2) := fun e hm => means_utf8 (h3 e hm) hd (he e hm).2
    then_utf8 ht (utf8_objectText (by
      intro x hx
      obtain ⟨e, h4, rfl⟩ := List.mem_map.1 (List.mem_filter.1 hx).1
      exact ⟨utf8_quoted (he e h4).1, hr e h4⟩)) hs.2

theorem then_utf8 {x t r : Bytes} (h : Then x t r) (hx : IsUtf8 x) (ht : IsUtf8 t) : IsUtf8 r :=
  match h with
  | .done => hx
  | .dot h => means_utf8 h hx (ht.tail_ascii (by decide))
  | .pipe h => means_utf8 h hx (ht.tail_ascii (by decide))

theorem seeks_utf8 {v path r : Bytes} {b : Bool} (h : Seeks v path r b) (hv : IsUtf8 v) (hp : IsUtf8 path) : IsUtf8 r :=
  match h with
  | .obj ho _ hw => walks_utf8 hw (by
      intro kl x hx
      obtain ⟨m, hm, e⟩ := List.mem_map.1 hx
      cases e
      exact ((utf8_isObject ho).1 hv m hm).2) (a := _) hp
  | .arr ha hr => rows_utf8 hr ((utf8_isArray ha).1 hv) hp

theorem walks_utf8 {k t r a : Bytes} {es : List Seen} {b : Bool} (h : Walks k t es r b) (he : SeenUtf8 es) (hp : IsUtf8 (a ++ t)) : IsUtf8 r :=
  match h with
  | .nil ht => then_utf8 ht .nil (utf8_then ht hp).2
  | .stop ht => then_utf8 ht .nil (utf8_then ht hp).2
  | .skip _ hw => walks_utf8 hw (fun kl x hx => he kl x (by simp [hx])) hp
  | .hit _ _ ht => then_utf8 ht (he _ _ (List.mem_cons_self ..)) (utf8_then ht hp).2
  | .into _ hi => seeks_utf8 hi (he _ _ (List.mem_cons_self ..)) ((hp.right (by decide)).tail_ascii (by decide))
  | .again _ _ hm hw => walks_utf8 hw (by
      intro kl x hx
      rcases List.mem_append.1 hx with hx | hx
      · exact utf8_met hm (by simpa using he _ _ (List.mem_cons_self ..)) kl x hx
      · exact he kl x (by simp [hx])) hp

theorem rows_utf8 {vs : List Bytes} {path r : Bytes} {b : Bool} (h : Rows vs path r b) (hv : ∀ v ∈ vs, IsUtf8 v) (hp : IsUtf8 path) : IsUtf8 r :=
  match h with
  | .elem _ _ _ he ht => then_utf8 ht (hv _ (List.mem_of_getElem? he)) (utf8_then ht hp).2
  | .beyond _ _ ht => then_utf8 ht .nil (utf8_then ht hp).2
  | .count _ ht => then_utf8 ht (utf8_numeral _) (utf8_then ht hp).2
  | .map (f := f) _ _ h3 h4 ht =>
    have hs := utf8_before h3 ((hp.tail_ascii (by decide)).tail_ascii (by decide))
    have hr : ∀ v ∈ vs, IsUtf8 (f v) := fun v hm => means_utf8 (h4 v hm) (hv v hm) hs.1
    then_utf8 ht (utf8_arrayText (by
      intro x hx
      obtain ⟨e, h5, rfl⟩ := List.mem_map.1 (List.mem_filter.1 hx).1
      exact hr e h5)) hs.2
  | .first _ _ h2 ht => then_utf8 ht (hv _ (List.mem_of_find?_eq_some h2)) (utf8_then ht hp).2
  | .firstNone _ _ _ ht => then_utf8 ht .nil (utf8_then ht hp).2
  | .all _ _ _ ht => then_utf8 ht (utf8_arrayText fun x hx => hv x (List.mem_filter.1 hx).1) (utf8_then ht hp).2
  | .allMap (f := f) _ _ _ _ h4 h5 ht =>
    have hs := utf8_before h4 ((hp.right (by decide)).tail_ascii (by decide))
    have hr := fun v hm => means_utf8 (h5 v hm) (hv v (List.mem_filter.1 hm).1) hs.1
    then_utf8 ht (utf8_arrayText (by
      intro x hx
      obtain ⟨e, h6, rfl⟩ := List.mem_map.1 (List.mem_filter.1 hx).1
      exact hr e h6)) hs.2

theorem writes_utf8 {n a doc out : Bytes} (h : Writes n a doc out) (hd : IsUtf8 doc) (ha : IsUtf8 a) : IsUtf8 out :=
  match h with
  | .this => hd
  | .valid _ => hd
  | .invalid _ => .nil
  | .unknown _ => .nil
  | .reverseArray h1 h2 => utf8_arrayText fun v hv =>
      (utf8_isArray h1).1 ((utf8_padded h2 (IsArray.isValue h1)).1 hd) v (List.mem_reverse.1 hv)
  | .reverseObject (ms := ms) h1 h2 h3 => by
    have hv : IsValue (c! '{' :: (membersText ms ++ [c! '}'])) := IsObject.isValue (isObject_of_members h1 h2)
    have hm := ((utf8_members h1 h2 (by decide)).1 (((utf8_padded h3 hv).1 hd).tail_ascii (by decide))).1
    refine .cons (by decide) ((utf8_commaSep fun p hp => ?_).append (.ascii (by decide)))
    obtain ⟨m, h4, rfl⟩ := List.mem_map.1 hp
    have h4 := List.mem_reverse.1 h4
    obtain ⟨_, _, h5, h6, _⟩ := h1 m h4
    exact (hm m h4).1.append ((utf8_ws h5).append (.cons (by decide) ((utf8_ws h6).append (hm m h4).2)))
  | .reverseEmpty _ _ => by decide +kernel
  | .reverseScalar h1 _ _ h4 => (utf8_padded h4 h1).1 hd
  | .reverseNone => .nil
  | .ugly h => by
    obtain ⟨out, h1, h2⟩ := modUgly_keeps (U := True) ⟨h, fun _ => hd⟩
    have h3 : modUgly doc = .ok (tokens doc).flatten := writes_ugly (a := a) h
    rw [h1] at h3
    cases h3
    exact h2.2 trivial
  | .uglyNone => .nil
  | .pretty h1 h2 h4 h5 h6 h7 h8 h9 h10 h11 => by
    have hx := utf8_strVal h7 (means_utf8 h6 ha (by decide +kernel))
    refine hx.append ((utf8_laid ⟨hx, ?_⟩ _ _ ((utf8_denotes h2).1 ((utf8_padded h1 (value_of_denotes h2)).1 hd))).append (.ascii (by decide)))
    rcases h5 with ⟨_, rfl⟩ | ⟨_, h5⟩
    · exact ascii_utf8 (a := b!"  ") (by decide)
    · exact utf8_strVal h5 (means_utf8 h4 ha (by decide +kernel))
  | .prettyNone h1 h2 => by
    split
    · exact .nil
    · exact (utf8_strVal h2 (means_utf8 h1 ha (by decide +kernel))).append (.ascii (by decide))
  | .flatten h1 h2 _ _ => by
    have hv := (utf8_isArray h1).1 ((utf8_padded h2 (IsArray.isValue h1)).1 hd)
    refine utf8_arrayText fun p hp => ?_
    obtain ⟨v, h5, rfl⟩ := List.mem_map.1 (List.mem_filter.1 hp).1
    split
    · rename_i hk
      exact utf8_inside (IsArray.mem_value h1 v h5).1 (.inr hk) (hv v h5)
    · exact hv v h5
  | .flattenDeep h1 h2 _ _ h5 =>
    utf8_arrayText (utf8_deep h5 ((utf8_isArray h1).1 ((utf8_padded h2 (IsArray.isValue h1)).1 hd)))
  | .join h1 h2 _ _ h5 _ =>
    utf8_objectText (utf8_merge (utf8_objectsOf h5 ((utf8_isArray h1).1 ((utf8_padded h2 (IsArray.isValue h1)).1 hd))))
  | .joinKeep h1 h2 _ _ => by
    have hv := (utf8_isArray h1).1 ((utf8_padded h2 (IsArray.isValue h1)).1 hd)
    refine .cons (by decide) ((utf8_commaSep fun p hp => ?_).append (.ascii (by decide)))
    obtain ⟨v, h5, rfl⟩ := List.mem_map.1 hp
    obtain ⟨h5, h6⟩ := List.mem_filter.1 h5
    exact utf8_inside (IsArray.mem_value h1 v h5).1 (.inl (by simpa using h6)) (hv v h5)
  | .noArray _ _ _ _ => hd
  | .noneArray _ => .nil
end

end Gjson
