import Verif.Lemmas.WholeTidy
import Verif.SpecLayout
/-
What `pretty` writes with white space as prefix and indent has nothing between the brackets of
empty arrays and objects.
-/
namespace Gjson
open Spec

/-- A document that some JSON text represents. -/
inductive Sound : Doc → Prop
  | leaf {t : Bytes} : IsValue t → kindOf t ≠ .object → kindOf t ≠ .array → Sound (.leaf t)
  | arr {es : List Doc} : (∀ d ∈ es, Sound d) → Sound (.arr es)
  | obj {ms : List (Bytes × Doc)} : (∀ m ∈ ms, StrLit m.1) → (∀ m ∈ ms, Sound m.2) → Sound (.obj ms)

theorem denotes_sound {v : Bytes} {d : Doc} (h : Denotes v d) : Sound d := by
  induction h with
  | leaf h h1 h2 => exact .leaf h h1 h2
  | arrEmpty _ => exact .arr (by simp)
  | arr _ _ _ ih =>
    refine .arr fun d hd => ?_
    obtain ⟨e, he, rfl⟩ := List.mem_map.1 hd
    exact ih e he
  | objEmpty _ => exact .obj (by simp) (by simp)
  | obj _ hw _ ih =>
    refine .obj (fun m hm => ?_) fun m hm => ?_
    · obtain ⟨e, he, rfl⟩ := List.mem_map.1 hm
      exact (hw e he).2.1
    · obtain ⟨e, he, rfl⟩ := List.mem_map.1 hm
      exact ih e he

theorem sound_denotes {d : Doc} (h : Sound d) : ∃ v, Denotes v d := by
  induction h with
  | leaf h h1 h2 => exact ⟨_, .leaf h h1 h2⟩
  | @arr es _ ih =>
    by_cases hn : es = []
    · subst hn; exact ⟨_, .arrEmpty ws_nil⟩
    · obtain ⟨f, hf⟩ := Classical.axiomOfChoice (r := fun d v => d ∈ es → Denotes v d) (by
        intro d
        by_cases hd : d ∈ es
        · obtain ⟨v, hv⟩ := ih d hd
          exact ⟨v, fun _ => hv⟩
        · exact ⟨[], fun h => absurd h hd⟩)
      have := Denotes.arr (es := es.map fun d => ((⟨[], f d, []⟩ : Elem), d)) (by simpa using hn)
        (by intro e he; obtain ⟨x, hx, rfl⟩ := List.mem_map.1 he; exact ⟨ws_nil, ws_nil⟩)
        (by intro e he; obtain ⟨x, hx, rfl⟩ := List.mem_map.1 he; exact hf x hx)
      rw [List.map_map, List.map_map, show (Prod.snd ∘ fun d => ((⟨[], f d, []⟩ : Elem), d)) = id from rfl, List.map_id] at this
      exact ⟨_, this⟩
  | @obj ms hk _ ih =>
    by_cases hn : ms = []
    · subst hn; exact ⟨_, .objEmpty ws_nil⟩
    · obtain ⟨f, hf⟩ := Classical.axiomOfChoice (r := fun (m : Bytes × Doc) v => m ∈ ms → Denotes v m.2) (by
        intro d
        by_cases hd : d ∈ ms
        · obtain ⟨v, hv⟩ := ih d hd
          exact ⟨v, fun _ => hv⟩
        · exact ⟨[], fun h => absurd h hd⟩)
      have := Denotes.obj (ms := ms.map fun m => ((⟨[], m.1, [], [], f m, []⟩ : Member), m.2)) (by simpa using hn)
        (by intro e he; obtain ⟨x, hx, rfl⟩ := List.mem_map.1 he; exact ⟨ws_nil, hk x hx, ws_nil, ws_nil, ws_nil⟩)
        (by intro e he; obtain ⟨x, hx, rfl⟩ := List.mem_map.1 he; exact hf x hx)
      rw [List.map_map, List.map_map,
        show ((fun m : Member × Doc => (m.1.key, m.2)) ∘ fun m : Bytes × Doc => ((⟨[], m.1, [], [], f m, []⟩ : Member), m.2)) = id from rfl, List.map_id] at this
      exact ⟨_, this⟩

theorem sound_tight {d : Doc} (h : Sound d) : Tidy d.tight := by
  obtain ⟨v, hv⟩ := sound_denotes h
  exact tidy_bare hv

theorem sound_sort {d : Doc} (h : Sound d) (b : Bool) : Sound (if b then d.sort else d) := by
  cases b with
  | false => exact h
  | true =>
    obtain ⟨v, hv⟩ := sound_denotes h
    obtain ⟨v', hv'⟩ := denotable_sort hv
    exact denotes_sound hv'

theorem sound_elems {es : List Doc} (h : Sound (.arr es)) : ∀ d ∈ es, Sound d := by cases h; assumption
theorem sound_members {ms : List (Bytes × Doc)} (h : Sound (.obj ms)) : ∀ m ∈ ms, StrLit m.1 ∧ Sound m.2 := by
  cases h with
  | obj h1 h2 => exact fun m hm => ⟨h1 m hm, h2 m hm⟩

/-- Tidy elements, at least one, as they are between brackets. -/
def Elems1 (x : Bytes) : Prop := ∃ es : List Elem, es ≠ [] ∧ (∀ e ∈ es, e.Wf) ∧ (∀ e ∈ es, Tidy e.val) ∧ x = elemsText es
/-- Tidy members, at least one. -/
def Members1 (x : Bytes) : Prop := ∃ ms : List Member, ms ≠ [] ∧ (∀ m ∈ ms, m.Wf) ∧ (∀ m ∈ ms, Tidy m.val) ∧ x = membersText ms

theorem elems1_one {a x b : Bytes} (ha : Ws a) (hx : Tidy x) (hb : Ws b) : Elems1 (a ++ (x ++ b)) :=
  ⟨[⟨a, x, b⟩], by simp, by simpa using ⟨ha, hb⟩, by simpa using hx, by simp [elemsText, Elem.text]⟩
theorem elems1_cons {a x b r : Bytes} (ha : Ws a) (hx : Tidy x) (hb : Ws b) (hr : Elems1 r) : Elems1 (a ++ (x ++ (b ++ c! ',' :: r))) := by
  obtain ⟨es, h1, h2, h3, rfl⟩ := hr
  refine ⟨⟨a, x, b⟩ :: es, by simp, ?_, ?_, ?_⟩
  · simpa using ⟨⟨ha, hb⟩, h2⟩
  · simpa using ⟨hx, h3⟩
  · cases es with
    | nil => exact absurd rfl h1
    | cons e r => simp [elemsText, Elem.text]
theorem elems1_tidy {x : Bytes} (h : Elems1 x) : Tidy (c! '[' :: (x ++ b!"]")) := by
  obtain ⟨es, _, h2, h3, rfl⟩ := h
  exact stock_tidy.array h2 h3

theorem members1_one {a k m x b : Bytes} (ha : Ws a) (hk : StrLit k) (hm : Ws m) (hx : Tidy x) (hb : Ws b) :
    Members1 (a ++ (k ++ c! ':' :: (m ++ (x ++ b)))) :=
  ⟨[⟨a, k, [], m, x, b⟩], by simp, by simpa using ⟨ha, hk, ws_nil, hm, hb⟩, by simpa using hx, by simp [membersText, Member.text]⟩
theorem members1_cons {a k m x b r : Bytes} (ha : Ws a) (hk : StrLit k) (hm : Ws m) (hx : Tidy x) (hb : Ws b) (hr : Members1 r) :
    Members1 (a ++ (k ++ c! ':' :: (m ++ (x ++ (b ++ c! ',' :: r))))) := by
  obtain ⟨es, h1, h2, h3, rfl⟩ := hr
  refine ⟨⟨a, k, [], m, x, b⟩ :: es, by simp, ?_, ?_, ?_⟩
  · simpa using ⟨⟨ha, hk, ws_nil, hm, hb⟩, h2⟩
  · simpa using ⟨hx, h3⟩
  · cases es with
    | nil => exact absurd rfl h1
    | cons e r => simp [membersText, Member.text]
theorem members1_tidy {x : Bytes} (h : Members1 x) : Tidy (c! '{' :: (x ++ b!"}")) := by
  obtain ⟨es, _, h2, h3, rfl⟩ := h
  exact stock_tidy.object h2 h3

theorem tidy_noElems : Tidy b!"[]" := stock_tidy.array (es := []) (by simp) (by simp)
theorem tidy_noMembers : Tidy b!"{}" := stock_tidy.object (ms := []) (by simp) (by simp)

/-- White space as prefix and indent. -/
def BlankStyle (s : Style) : Prop := Ws s.pfx ∧ Ws s.indent

theorem copies_ws {t : Bytes} (h : Ws t) : ∀ n, Ws (copies t n)
  | 0 => ws_nil
  | n + 1 => by rw [copies]; exact ws_append h (copies_ws h n)

theorem pad_ws {s : Style} (h : BlankStyle s) (n : Nat) : Ws (s.pad n) := ws_append h.1 (copies_ws h.2 n)
theorem line_ws {s : Style} (h : BlankStyle s) (n : Nat) : Ws (c! '\n' :: s.pad n) := ws_append (a := b!"\n") (by decide) (pad_ws h n)

theorem commaLines_elems {a b : Bytes} (ha : Ws a) (hb : Ws b) : ∀ ps : List Bytes, ps ≠ [] → (∀ p ∈ ps, Tidy p) →
    Elems1 (c! '\n' :: (commaLines (ps.map fun p => a ++ p) ++ b))
  | [], h, _ => absurd rfl h
  | [p], _, h => by simpa [commaLines] using elems1_one (ws_append (a := b!"\n") (by decide) ha) (h p (by simp)) hb
  | p :: q :: r, _, h => by
    have := commaLines_elems ha hb (q :: r) (by simp) fun x hx => h x (List.mem_cons_of_mem _ hx)
    simpa [commaLines] using elems1_cons (ws_append (a := b!"\n") (by decide) ha) (h p (by simp)) ws_nil this

theorem commaLines_members {a b : Bytes} (ha : Ws a) (hb : Ws b) : ∀ ps : List (Bytes × Bytes), ps ≠ [] → (∀ p ∈ ps, StrLit p.1 ∧ Tidy p.2) →
    Members1 (c! '\n' :: (commaLines (ps.map fun p => a ++ (p.1 ++ (b!": " ++ p.2))) ++ b))
  | [], h, _ => absurd rfl h
  | [p], _, h => by
    simpa [commaLines] using members1_one (m := b!" ") (ws_append (a := b!"\n") (by decide) ha) (h p (by simp)).1 (by decide) (h p (by simp)).2 hb
  | p :: q :: r, _, h => by
    have := commaLines_members ha hb (q :: r) (by simp) fun x hx => h x (List.mem_cons_of_mem _ hx)
    simpa [commaLines] using members1_cons (m := b!" ") (ws_append (a := b!"\n") (by decide) ha) (h p (by simp)).1 (by decide) (h p (by simp)).2 ws_nil this

theorem block_elems {s : Style} (hs : BlankStyle s) (n : Nat) {ps : List Bytes} (h : ∀ p ∈ ps, Tidy p) :
    Tidy (s.block n (c! '[') (c! ']') ps) := by
  cases ps with
  | nil => exact tidy_noElems
  | cons p r =>
    have := elems1_tidy (commaLines_elems (pad_ws hs (n + 1)) (line_ws hs n) (p :: r) (by simp) h)
    simpa [Style.block] using this

theorem block_members {s : Style} (hs : BlankStyle s) (n : Nat) {ps : List (Bytes × Bytes)} (h : ∀ p ∈ ps, StrLit p.1 ∧ Tidy p.2) :
    Tidy (s.block n (c! '{') (c! '}') (ps.map fun p => p.1 ++ (b!": " ++ p.2))) := by
  cases ps with
  | nil => exact tidy_noMembers
  | cons p r =>
    have := members1_tidy (commaLines_members (pad_ws hs (n + 1)) (line_ws hs n) (p :: r) (by simp) h)
    simpa [Style.block, Function.comp_def] using this

mutual
theorem line_tidy : ∀ {d : Doc} {p : Bytes}, Sound d → d.line = some p → Tidy p
  | .leaf t, p, h, e => by
    simp only [Doc.line, Option.some.injEq] at e
    subst e
    cases h with | leaf h1 h2 h3 => exact .scalar h1 h2 h3
  | .arr es, p, h, e => by
    simp only [Doc.line, Option.map_eq_some_iff] at e
    obtain ⟨q, hq, rfl⟩ := e
    by_cases hn : es = []
    · subst hn
      rw [lineElems] at hq
      cases hq
      exact tidy_noElems
    · exact elems1_tidy (lineElems_tidy hn (a := []) ws_nil (sound_elems h) hq)
  | .obj _, p, _, e => by simp [Doc.line] at e
theorem lineElems_tidy : ∀ {es : List Doc}, es ≠ [] → ∀ {a p : Bytes}, Ws a → (∀ x ∈ es, Sound x) → lineElems es = some p → Elems1 (a ++ p)
  | [], hn, _, _, _, _, _ => absurd rfl hn
  | [d], _, a, p, ha, h, e => by
    rw [lineElems] at e
    simpa using elems1_one ha (line_tidy (h d (by simp)) e) ws_nil
  | d :: d' :: r, _, a, p, ha, h, e => by
    simp only [lineElems, Option.bind_eq_some_iff, Option.map_eq_some_iff] at e
    obtain ⟨x, hx, q, hq, rfl⟩ := e
    have := lineElems_tidy (es := d' :: r) (by simp) (a := b!" ") (by decide) (fun x hx => h x (List.mem_cons_of_mem _ hx)) hq
    simpa using elems1_cons ha (line_tidy (h d (by simp)) hx) ws_nil this
end

mutual
theorem layout_tidy {s : Style} (hs : BlankStyle s) : ∀ (n col : Nat) {d : Doc}, Sound d → Tidy (d.layout s n col)
  | n, col, .leaf t, h => by
    rw [Doc.layout]
    cases h with | leaf h1 h2 h3 => exact .scalar h1 h2 h3
  | n, col, .arr es, h => by
    have hb := block_elems hs n (layElems_tidy hs n ((s.pad (n + 1)).length + 1) (sound_elems h))
    rw [Doc.layout]
    cases he : (Doc.arr es).line with
    | none => exact hb
    | some p =>
      dsimp only
      split
      · exact line_tidy h he
      · exact hb
  | n, col, .obj ms, h => by
    rw [Doc.layout]
    obtain ⟨ps, h1, h2⟩ := layMembers_tidy hs n (sound_members h)
    rw [h1]
    exact block_members hs n h2
theorem layElems_tidy {s : Style} (hs : BlankStyle s) : ∀ (n col : Nat) {es : List Doc}, (∀ d ∈ es, Sound d) → ∀ p ∈ layElems s n col es, Tidy p
  | _, _, [], _ => by simp [layElems]
  | n, col, d :: r, h => by
    intro p hp
    rw [layElems] at hp
    rcases List.mem_cons.1 hp with rfl | hp
    · exact layout_tidy hs (n + 1) col (h d (by simp))
    · exact layElems_tidy hs n _ (fun x hx => h x (List.mem_cons_of_mem _ hx)) p hp
theorem layMembers_tidy {s : Style} (hs : BlankStyle s) : ∀ (n : Nat) {ms : List (Bytes × Doc)}, (∀ m ∈ ms, StrLit m.1 ∧ Sound m.2) →
    ∃ ps : List (Bytes × Bytes), layMembers s n ms = ps.map (fun p => p.1 ++ (b!": " ++ p.2)) ∧ ∀ p ∈ ps, StrLit p.1 ∧ Tidy p.2
  | _, [], _ => ⟨[], rfl, by simp⟩
  | n, (k, d) :: r, h => by
    obtain ⟨ps, h1, h2⟩ := layMembers_tidy hs n fun x hx => h x (List.mem_cons_of_mem _ hx)
    have h0 := h (k, d) (by simp)
    refine ⟨(k, d.layout s (n + 1) ((s.pad (n + 1)).length + k.length + 3)) :: ps, ?_, ?_⟩
    · rw [layMembers, h1]; rfl
    · intro p hp
      rcases List.mem_cons.1 hp with rfl | hp
      · exact ⟨h0.1, layout_tidy hs _ _ h0.2⟩
      · exact h2 p hp
end

theorem restElems_tidy {a x : Bytes} (ha : Ws a) (hx : Tidy x) : ∀ {r : List Doc}, (∀ d ∈ r, Sound d) → ∃ y, Elems1 y ∧ a ++ (x ++ restElems r) = y ++ b!"]"
  | [], _ => ⟨_, elems1_one ha hx ws_nil, by simp [restElems]⟩
  | d :: r, h => by
    obtain ⟨y, h1, h2⟩ := restElems_tidy (a := []) ws_nil (sound_tight (h d (by simp))) (r := r) fun x hx => h x (List.mem_cons_of_mem _ hx)
    refine ⟨_, elems1_cons ha hx ws_nil h1, ?_⟩
    rw [List.nil_append] at h2
    simp [restElems, h2]

theorem restMembers_tidy {a k m x : Bytes} (ha : Ws a) (hk : StrLit k) (hm : Ws m) (hx : Tidy x) : ∀ {r : List (Bytes × Doc)},
    (∀ m ∈ r, StrLit m.1 ∧ Sound m.2) → ∃ y, Members1 y ∧ a ++ (k ++ c! ':' :: (m ++ (x ++ restMembers r))) = y ++ b!"}"
  | [], _ => ⟨_, members1_one ha hk hm hx ws_nil, by simp [restMembers]⟩
  | (k', d) :: r, h => by
    have h0 := h (k', d) (by simp)
    obtain ⟨y, h1, h2⟩ := restMembers_tidy (a := []) (m := []) ws_nil h0.1 ws_nil (sound_tight h0.2) (r := r) fun x hx => h x (List.mem_cons_of_mem _ hx)
    refine ⟨_, members1_cons ha hk hm hx ws_nil h1, ?_⟩
    simp only [List.nil_append] at h2
    simp [restMembers, h2]

mutual
theorem cutLine_tidy : ∀ {k : Nat} {rest : Bytes} {d : Doc} {p : Bytes}, Sound d → d.cutLine k rest = some p → ∃ x, Tidy x ∧ p = x ++ rest
  | k, rest, .leaf _, p, _, e => by simp [Doc.cutLine] at e
  | 0, rest, .arr es, p, h, e => by
    simp only [Doc.cutLine, Option.some.injEq] at e
    exact ⟨_, sound_tight h, e.symm⟩
  | 0, rest, .obj ms, p, h, e => by
    simp only [Doc.cutLine, Option.some.injEq] at e
    exact ⟨_, sound_tight h, e.symm⟩
  | k + 1, rest, .arr es, p, h, e => by
    simp only [Doc.cutLine, Option.map_eq_some_iff] at e
    obtain ⟨q, hq, rfl⟩ := e
    obtain ⟨y, h1, h2⟩ := cutLineElems_tidy (a := []) ws_nil (sound_elems h) hq
    rw [List.nil_append] at h2
    exact ⟨_, elems1_tidy h1, by simp [h2]⟩
  | k + 1, rest, .obj _, p, _, e => by simp [Doc.cutLine] at e
theorem cutLineElems_tidy : ∀ {k : Nat} {rest : Bytes} {es : List Doc} {a p : Bytes}, Ws a → (∀ x ∈ es, Sound x) → cutLineElems k rest es = some p →
    ∃ y, Elems1 y ∧ a ++ p = y ++ c! ']' :: rest
  | k, rest, [], _, _, _, _, e => by simp [cutLineElems] at e
  | k, rest, d :: r, a, p, ha, h, e => by
    have hd := h d (by simp)
    have hr : ∀ x ∈ r, Sound x := fun x hx => h x (List.mem_cons_of_mem _ hx)
    rw [cutLineElems] at e
    split at e
    · simp only [Option.bind_eq_some_iff, Option.map_eq_some_iff] at e
      obtain ⟨x, hx, q, hq, rfl⟩ := e
      obtain ⟨y, h1, h2⟩ := cutLineElems_tidy (a := b!" ") (by decide) hr hq
      refine ⟨_, elems1_cons ha (line_tidy hd hx) ws_nil h1, ?_⟩
      simp only [List.append_assoc, List.cons_append, List.nil_append] at h2 ⊢
      rw [← h2]
    · obtain ⟨x, h1, rfl⟩ := cutLine_tidy hd e
      obtain ⟨y, h2, h3⟩ := restElems_tidy ha h1 hr
      refine ⟨y, h2, ?_⟩
      have := congrArg (· ++ rest) h3
      simpa using this
end

mutual
theorem cut_tidy {s : Style} (hs : BlankStyle s) (b : Bool) : ∀ (n col k : Nat) (rest : Bytes) {d : Doc}, Sound d → k < d.height →
    ∃ x, Tidy x ∧ d.cut s b n col k rest = x ++ rest
  | n, col, k, rest, .leaf t, h, hk => by simp [Doc.height] at hk
  | n, col, 0, rest, .arr es, h, _ => ⟨_, sound_tight h, by rw [Doc.cut]⟩
  | n, col, 0, rest, .obj ms, h, _ => ⟨_, sound_tight h, by rw [Doc.cut]⟩
  | n, col, k + 1, rest, .arr es, h, hk => by
    rw [Doc.height] at hk
    obtain ⟨y, h1, h2⟩ := cutElems_tidy hs b n ((s.pad (n + 1)).length + 1) k rest (sound_elems h) (by omega)
    have hb : ∃ x, Tidy x ∧ c! '[' :: cutElems s b n ((s.pad (n + 1)).length + 1) k rest es = x ++ rest := ⟨_, elems1_tidy h1, by simp [h2]⟩
    rw [Doc.cut]
    cases he : (Doc.arr es).cutLine (k + 1) rest with
    | none => exact hb
    | some p =>
      dsimp only
      split
      · exact cutLine_tidy h he
      · exact hb
  | n, col, k + 1, rest, .obj ms, h, hk => by
    rw [Doc.height] at hk
    obtain ⟨y, h1, h2⟩ := cutMembers_tidy hs b n k rest (sound_members h) (by omega)
    exact ⟨_, members1_tidy h1, by rw [Doc.cut]; simp [h2]⟩
theorem cutElems_tidy {s : Style} (hs : BlankStyle s) (b : Bool) : ∀ (n col k : Nat) (rest : Bytes) {es : List Doc}, (∀ d ∈ es, Sound d) → k < elemHeight es →
    ∃ y, Elems1 y ∧ cutElems s b n col k rest es = y ++ c! ']' :: rest
  | n, col, k, rest, [], _, hk => by simp [elemHeight] at hk
  | n, col, k, rest, d :: r, h, hk => by
    have hd := h d (by simp)
    have hr : ∀ x ∈ r, Sound x := fun x hx => h x (List.mem_cons_of_mem _ hx)
    rw [elemHeight] at hk
    rw [cutElems]
    split
    · obtain ⟨y, h1, h2⟩ := cutElems_tidy hs b n (s.pad (n + 1)).length k rest hr (by omega)
      refine ⟨_, elems1_cons (line_ws hs (n + 1)) (layout_tidy hs (n + 1) col (sound_sort hd b)) ws_nil h1, ?_⟩
      rw [h2]; simp
    · obtain ⟨x, h1, h2⟩ := cut_tidy hs b (n + 1) col k (restElems r ++ rest) hd (by omega)
      obtain ⟨y, h3, h4⟩ := restElems_tidy (line_ws hs (n + 1)) h1 hr
      refine ⟨y, h3, ?_⟩
      rw [h2]
      have := congrArg (· ++ rest) h4
      simpa using this
theorem cutMembers_tidy {s : Style} (hs : BlankStyle s) (b : Bool) : ∀ (n k : Nat) (rest : Bytes) {ms : List (Bytes × Doc)},
    (∀ m ∈ ms, StrLit m.1 ∧ Sound m.2) → k < memHeight ms → ∃ y, Members1 y ∧ cutMembers s b n k rest ms = y ++ c! '}' :: rest
  | n, k, rest, [], _, hk => by simp [memHeight] at hk
  | n, k, rest, (key, d) :: r, h, hk => by
    have h0 : StrLit key ∧ Sound d := h (key, d) (by simp)
    have hr : ∀ m ∈ r, StrLit m.1 ∧ Sound m.2 := fun x hx => h x (List.mem_cons_of_mem _ hx)
    rw [memHeight] at hk
    rw [cutMembers]
    split
    · obtain ⟨y, h1, h2⟩ := cutMembers_tidy hs b n k rest hr (by omega)
      refine ⟨_, members1_cons (m := b!" ") (line_ws hs (n + 1)) h0.1 (by decide)
        (layout_tidy hs (n + 1) ((s.pad (n + 1)).length + key.length + 3) (sound_sort h0.2 b)) ws_nil h1, ?_⟩
      rw [h2]; simp
    · obtain ⟨x, h1, h2⟩ := cut_tidy hs b (n + 1) ((s.pad (n + 1)).length + key.length + 3) k (restMembers r ++ rest) h0.2 (by omega)
      obtain ⟨y, h3, h4⟩ := restMembers_tidy (m := b!" ") (line_ws hs (n + 1)) h0.1 (by decide) h1 hr
      refine ⟨y, h3, ?_⟩
      rw [h2]
      have := congrArg (· ++ rest) h4
      simpa using this
end

theorem laid_tidy {s : Style} (hs : BlankStyle s) (b : Bool) (k : Nat) {v : Bytes} {d : Doc} (h : Denotes v d) : Tidy (d.laid s b k) := by
  have hd := denotes_sound h
  unfold Doc.laid
  split
  · exact layout_tidy hs _ _ (sound_sort hd b)
  · obtain ⟨x, h1, h2⟩ := cut_tidy hs b 0 s.pfx.length k [] hd (by omega)
    rw [h2, List.append_nil]
    exact h1

theorem pretty_padded {width : Nat} {sort : Bool} {indent pfx v : Bytes} {d : Doc} (wi : Ws indent) (wx : Ws pfx) (h : Denotes v d) :
    Padded (d.laid ⟨width, pfx, indent⟩ sort 499) (pfx ++ (d.laid ⟨width, pfx, indent⟩ sort 499 ++ b!"\n")) ∧
      Tidy (d.laid ⟨width, pfx, indent⟩ sort 499) :=
  ⟨⟨pfx, b!"\n", wx, by decide, rfl⟩, laid_tidy ⟨wx, wi⟩ sort 499 h⟩

theorem makesTidy_makes {n a : Bytes} (h : MakesTidy n a) : Makes Tidy n a := by
  intro doc hd
  have key : (∃ out, Writes n a doc out ∧ NiceDoc Tidy out) → ∃ out x, Writes n a doc out ∧ Kept out x ∧ Nice Tidy x := by
    rintro ⟨out, h1, h2⟩
    obtain ⟨x, h3, h4⟩ := kept_nice stock_tidy h2
    exact ⟨out, x, h1, h3, h4⟩
  cases h with
  | other hn => exact key (tidy_call hn hd)
  | flatten hx ht => exact key (tidy_flatten hx ht hd)
  | join hx ht => exact key (tidy_join hx ht hd)
  | pretty gi hi wi gp hx wx gs hs gw hw =>
    rcases hd with rfl | ⟨v, hp, hv⟩
    · refine ⟨_, [], .prettyNone gp hx, .blank ?_, nice_nil⟩
      split
      · exact ws_nil
      · exact ws_line wx
    · obtain ⟨d, hd⟩ := denotes_of_value (tidy_value hv)
      exact key ⟨_, .pretty hp hd gi hi gp hx gs hs gw hw, .inr ⟨_, pretty_padded wi wx hd⟩⟩

theorem orderly_tamed {path : Bytes} (h : Orderly path) : Tamed Tidy path :=
  fun q P n a h1 h2 h3 => makesTidy_makes (h q P n a h1 h2 h3)

theorem bare_orderly {path : Bytes} (h : Bare path) : Orderly path := by
  intro q P n a hq hc hn
  have hi := (cut_rest hc).2.trans (asked_infix hq)
  have sel : ∀ k, PlainKey k → k ≠ [] → Means [] k [] := fun k h1 h2 => means_key_nil (PlainKey.selector h1 h2)
  have no : Truth [] false := .num (n := 0) (by decide) (by decide) (.other (.inl rfl))
  generalize P.comp = k at hn hi
  generalize P.arg = j at hn
  cases hn with
  | bare =>
    by_cases h0 : n = b!"pretty"
    · subst h0
      exact .pretty (n := 0) (sel b!"indent" ⟨by decide, by decide⟩ (by decide)) (.inl ⟨rfl, rfl⟩) (by decide)
        (sel b!"prefix" ⟨by decide, by decide⟩ (by decide)) .none ws_nil (sel b!"sortKeys" ⟨by decide, by decide⟩ (by decide)) no
        (sel b!"width" ⟨by decide, by decide⟩ (by decide)) (.inl ⟨rfl, rfl⟩)
    by_cases h1 : n = b!"flatten"
    · subst h1
      exact .flatten (sel b!"deep" ⟨by decide, by decide⟩ (by decide)) no
    by_cases h2 : n = b!"join"
    · subst h2
      exact .join (sel b!"preserve" ⟨by decide, by decide⟩ (by decide)) no
    refine .other fun hs => ?_
    simp only [List.mem_cons, List.not_mem_nil, or_false] at hs
    rcases hs with rfl | rfl | rfl
    · exact h0 rfl
    · exact h1 rfl
    · exact h2 rfl
  | arg =>
    refine .other fun hs => ?_
    simp only [List.mem_cons, List.not_mem_nil, or_false] at hs
    rcases hs with rfl | rfl | rfl
    · exact absurd ((show b!"@pretty:" <:+: _ from ⟨[], a, by simp⟩).trans hi) (h _ (by decide))
    · exact absurd ((show b!"@flatten:" <:+: _ from ⟨[], a, by simp⟩).trans hi) (h _ (by decide))
    · exact absurd ((show b!"@join:" <:+: _ from ⟨[], a, by simp⟩).trans hi) (h _ (by decide))

end Gjson
