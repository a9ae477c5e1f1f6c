import Verif.Lemmas.Sized
/-
The rules of `Spec.Means` give a result for every JSON text and every `Spec.Route`.
-/
namespace Gjson
open Spec

/-! ### Modifiers -/

theorem hasHeight_members {n : Nat} {ms : List Member} (hw : ∀ m ∈ ms, m.Wf) (hv : ∀ m ∈ ms, HasHeight n m.val) :
    HasHeight (n + 1) (c! '{' :: (membersText ms ++ [c! '}'])) := by
  have key : ∃ es : List (Member × Doc), es.map Prod.fst = ms ∧ (∀ e ∈ es, Denotes e.1.val e.2) ∧ ∀ e ∈ es, e.2.height ≤ n := by
    clear hw
    induction ms with
    | nil => exact ⟨[], rfl, by simp, by simp⟩
    | cons m ms ih =>
      obtain ⟨es, h1, h2, h3⟩ := ih fun x hx => hv x (List.mem_cons_of_mem _ hx)
      obtain ⟨d, g1, g2⟩ := hv m (by simp)
      refine ⟨(m, d) :: es, by rw [List.map_cons, h1], ?_, ?_⟩
      · intro x hx
        rcases List.mem_cons.1 hx with rfl | hx
        · exact g1
        · exact h2 x hx
      · intro x hx
        rcases List.mem_cons.1 hx with rfl | hx
        · exact g2
        · exact h3 x hx
  obtain ⟨es, rfl, h2, h3⟩ := key
  by_cases hne : es = []
  · subst hne
    exact ⟨.obj [], .objEmpty (w := []) ws_nil, by simp [Doc.height, memHeight]⟩
  · refine ⟨.obj (es.map fun m => (m.1.key, m.2)), .obj hne (fun m hm => hw _ (List.mem_map_of_mem hm)) h2, ?_⟩
    simp only [Doc.height]
    have := memHeight_of (n := n) (ds := es.map fun m => (m.1.key, m.2)) (by
      intro d hd
      obtain ⟨x, hx, rfl⟩ := List.mem_map.1 hd
      exact h3 x hx)
    omega

theorem sizedText_mono {m n : Nat} {t : Bytes} (h : SizedText m t) (hn : m ≤ n) : SizedText n t := by
  rcases h with h | ⟨v, h1, h2⟩
  · exact .inl h
  · exact .inr ⟨v, h1, h2.mono hn⟩

theorem hasHeight_text {n : Nat} {v : Bytes} (h : HasHeight n v) : SizedText n v := .inr ⟨v, padded_self v, h⟩

theorem not_jsonText_nil : ¬ JsonText [] := by
  rw [← C01_valid_iff_rfc8259]; decide +kernel

theorem writes_call {n a doc : Bytes} {h : Nat} (hn : n ∉ [b!"pretty", b!"flatten", b!"join"]) (hd : SizedText h doc) :
    ∃ out, Writes n a doc out ∧ SizedText (h + 1) out := by
  have up : SizedText (h + 1) doc := sizedText_mono hd (by omega)
  by_cases h1 : n = b!"this"
  · subst h1; exact ⟨doc, .this, up⟩
  by_cases h2 : n = b!"valid"
  · subst h2
    by_cases hj : JsonText doc
    · exact ⟨doc, .valid hj, up⟩
    · exact ⟨[], .invalid hj, .inl rfl⟩
  by_cases h3 : n = b!"reverse"
  · subst h3
    rcases hd with rfl | ⟨v, hp, hv⟩
    · exact ⟨[], .reverseNone, .inl rfl⟩
    · by_cases hc : IsCont v
      · rcases isCont_cases hv.value hc with ⟨kvs, ho⟩ | ⟨vs, ha⟩
        · have hm := hasHeight_member hv ho
          rcases ho with ⟨w, hw, rfl, rfl⟩ | ⟨ms, _, hw, hx, rfl, rfl⟩
          · exact ⟨_, .reverseEmpty hw hp, hasHeight_text (hasHeight_members (ms := []) (by simp) (by simp))⟩
          · refine ⟨_, .reverseObject hw hx hp, hasHeight_text ?_⟩
            have := hasHeight_members (n := h) (ms := ms.reverse.map fun m => ⟨[], m.key, m.mid1, m.mid2, m.val, []⟩) (by
              intro m hm
              obtain ⟨x, hx, rfl⟩ := List.mem_map.1 hm
              have := hw x (List.mem_reverse.1 hx)
              exact ⟨ws_nil, this.2.1, this.2.2.1, this.2.2.2.1, ws_nil⟩) (by
              intro m hm'
              obtain ⟨x, hx, rfl⟩ := List.mem_map.1 hm'
              exact hm (x.key, x.val) (List.mem_map.2 ⟨x, List.mem_reverse.1 hx, rfl⟩))
            rw [commaSep_members, List.map_map] at this
            have e : (Member.text ∘ fun m : Member => (⟨[], m.key, m.mid1, m.mid2, m.val, []⟩ : Member)) = Member.bare := by
              funext m; simp [Member.text, Member.bare]
            rw [e] at this
            exact this
        · refine ⟨_, .reverseArray ha hp, hasHeight_text (hasHeight_array ?_)⟩
          intro r hr
          have := hasHeight_elem hv ha r (List.mem_reverse.1 hr)
          exact ⟨isValue_ne_nil this.value, this.sized⟩
      · unfold IsCont at hc
        rw [not_or] at hc
        exact ⟨v, .reverseScalar hv.value hc.1 hc.2 hp, hasHeight_text (hv.mono (by omega))⟩
  by_cases h4 : n = b!"ugly"
  · subst h4
    rcases hd with rfl | ⟨v, hp, d, hv, hh⟩
    · exact ⟨[], .uglyNone, .inl rfl⟩
    · obtain ⟨w1, w2, g1, g2, e⟩ := id hp
      refine ⟨_, .ugly ⟨w1, v, w2, e, g1, g2, value_of_denotes hv⟩, hasHeight_text ⟨d, ?_, by omega⟩⟩
      rw [tokens_padded hp hv]
      exact denotes_bare hv
  · refine ⟨[], .unknown ?_, .inl rfl⟩
    unfold modNames
    simp only [List.mem_cons, List.not_mem_nil, or_false, not_or] at hn ⊢
    exact ⟨h1, h2, h3, h4, hn⟩

theorem deepFlattened_total {h : Nat} (n : Nat) : ∀ vs : List Bytes, sizes vs ≤ n → (∀ v ∈ vs, HasHeight h v) →
    ∃ ls, DeepFlattened vs ls ∧ ∀ v ∈ ls, HasHeight h v := by
  induction n using Nat.strongRecOn with
  | ind n ih =>
    intro vs hn hv
    cases vs with
    | nil => exact ⟨[], .nil, by simp⟩
    | cons v vs =>
      rw [sizes_cons] at hn
      have hx := hv v (by simp)
      obtain ⟨s, h1, h2⟩ := ih (sizes vs) (by omega) vs (Nat.le_refl _) fun x hx => hv x (List.mem_cons_of_mem _ hx)
      by_cases hk : kindOf v = .array
      · rcases isCont_cases hx.value (.inr hk) with ⟨kvs, ho⟩ | ⟨ws, ha⟩
        · rw [IsObject.kindOf ho] at hk; cases hk
        · obtain ⟨ls, h3, h4⟩ := ih (sizes ws) (by have := array_sizes ha; omega) ws (Nat.le_refl _) (hasHeight_elem hx ha)
          refine ⟨ls ++ s, .splice ha h3 h1, ?_⟩
          intro x hx
          rcases List.mem_append.1 hx with h | h
          · exact h4 x h
          · exact h2 x h
      · refine ⟨v :: s, .keep hk h1, ?_⟩
        intro x hx'
        rcases List.mem_cons.1 hx' with rfl | h
        · exact hx
        · exact h2 x h

theorem objectsOf_total {h : Nat} : ∀ vs : List Bytes, (∀ v ∈ vs, HasHeight h v) →
    ∃ mss, ObjectsOf vs mss ∧ ∀ m ∈ mss.flatten, HasHeight h m.2
  | [], _ => ⟨[], .nil, by simp⟩
  | v :: vs, hv => by
    have hx := hv v (by simp)
    obtain ⟨s, h1, h2⟩ := objectsOf_total (h := h) vs fun x hx => hv x (List.mem_cons_of_mem _ hx)
    by_cases hk : kindOf v = .object
    · rcases isCont_cases hx.value (.inl hk) with ⟨kvs, ho⟩ | ⟨ws, ha⟩
      · refine ⟨kvs :: s, .take ho h1, ?_⟩
        intro m hm
        rw [List.flatten_cons] at hm
        rcases List.mem_append.1 hm with h | h
        · exact hasHeight_member hx ho m h
        · exact h2 m h
      · rw [IsArray.kindOf ha] at hk; cases hk
    · exact ⟨s, .skip hk h1, h2⟩

theorem writes_flatten_total {a x doc : Bytes} {h : Nat} (hx : Means a b!"deep" x) (ht : Truth x true) (hd : SizedText h doc) :
    ∃ out, Writes b!"flatten" a doc out ∧ SizedText (h + 1) out := by
  have up : SizedText (h + 1) doc := sizedText_mono hd (by omega)
  rcases hd with rfl | ⟨v, hp, hv⟩
  · exact ⟨[], .noneArray (.inl rfl), .inl rfl⟩
  · by_cases hk : kindOf v = .array
    · rcases isCont_cases hv.value (.inr hk) with ⟨kvs, ho⟩ | ⟨ws, ha⟩
      · rw [IsObject.kindOf ho] at hk; cases hk
      · obtain ⟨ls, h1, h2⟩ := deepFlattened_total _ ws (Nat.le_refl _) (hasHeight_elem hv ha)
        exact ⟨_, .flattenDeep ha hp hx ht h1, hasHeight_text (hasHeight_array fun r hr => ⟨isValue_ne_nil (h2 r hr).value, (h2 r hr).sized⟩)⟩
    · exact ⟨doc, .noArray (.inl rfl) hv.value hk hp, up⟩

theorem writes_join_total {a x doc : Bytes} {h : Nat} (hx : Means a b!"preserve" x) (ht : Truth x false) (hd : SizedText h doc) :
    ∃ out, Writes b!"join" a doc out ∧ SizedText (h + 1) out := by
  have up : SizedText (h + 1) doc := sizedText_mono hd (by omega)
  rcases hd with rfl | ⟨v, hp, hv⟩
  · exact ⟨[], .noneArray (.inr rfl), .inl rfl⟩
  · by_cases hk : kindOf v = .array
    · rcases isCont_cases hv.value (.inr hk) with ⟨kvs, ho⟩ | ⟨ws, ha⟩
      · rw [IsObject.kindOf ho] at hk; cases hk
      · obtain ⟨mss, h1, h2⟩ := objectsOf_total ws (hasHeight_elem hv ha)
        have hl := objectsOf_lit h1
        obtain ⟨dec, hdec⟩ := Classical.axiomOfChoice (r := fun kl s => StrLit kl → Content kl s) (by
          intro kl
          by_cases hs : StrLit kl
          · obtain ⟨s, h⟩ := content_total hs
            exact ⟨s, fun _ => h⟩
          · exact ⟨[], fun h => absurd h hs⟩)
        refine ⟨_, .join ha hp hx ht h1 (fun m hm => hdec _ (hl m hm).1), hasHeight_text (hasHeight_object ?_)⟩
        intro m hm
        have := mergeMembers_mem (P := StrLit) (Q := HasHeight h) (fun m hm => ⟨(hl m hm).1, h2 m hm⟩) m hm
        exact ⟨this.1, isValue_ne_nil this.2.value, this.2.sized⟩
    · exact ⟨doc, .noArray (.inr rfl) hv.value hk hp, up⟩

theorem ws_line {w : Bytes} (h : Ws w) : Ws (w ++ b!"\n") := by
  intro c hc
  rcases List.mem_append.1 hc with hc | hc
  · exact h c hc
  · rw [List.mem_singleton.1 hc]; decide


/-- What `@pretty` writes is kept as a value. -/
theorem writes_pretty_total {a doc xi xp xs xw indent pfx : Bytes} {sort : Bool} {n width h : Nat}
    (gi : Means a b!"indent" xi) (hi : xi = [] ∧ indent = b!"  " ∨ xi ≠ [] ∧ StrVal xi indent) (wi : Ws indent)
    (gp : Means a b!"prefix" xp) (hx : StrVal xp pfx) (wx : Ws pfx) (gs : Means a b!"sortKeys" xs) (hs : Truth xs sort)
    (gw : Means a b!"width" xw) (hw : xw = [] ∧ width = 80 ∨ xw ≠ [] ∧ UnsignedVal xw n ∧ width = min n (2 ^ 32 - 1))
    (hd : SizedText h doc) : ∃ out x, Writes b!"pretty" a doc out ∧ Kept out x ∧ SizedVal h x := by
  rcases hd with rfl | ⟨v, hp, d, hv, hle⟩
  · refine ⟨_, [], .prettyNone gp hx, .blank ?_, sized_nil _⟩
    split
    · exact ws_nil
    · exact ws_line wx
  · have e := C43_laid hp hv ⟨width, pfx, indent, sort⟩
    have key : ∃ v', Padded v' (pfx ++ (d.laid ⟨width, pfx, indent⟩ sort 499 ++ b!"\n")) ∧ HasHeight h v' := by
      cases sort with
      | true =>
        obtain ⟨out, v', h1, h2, h3⟩ := C38_exact hp hv (o := ⟨width, pfx, indent, true⟩) wx wi rfl
        rw [e] at h1
        cases h1
        exact ⟨v', h2, _, h3, by rw [height_sortLim]; omega⟩
      | false =>
        obtain ⟨out, v', h1, h2, h3⟩ := C31_document hp hv (o := ⟨width, pfx, indent, false⟩) wx wi rfl
        rw [e] at h1
        cases h1
        exact ⟨v', h2, _, h3, hle⟩
    obtain ⟨x, h1, h2⟩ := kept_total (.inr key)
    exact ⟨_, x, .pretty hp hv gi hi gp hx gs hs gw hw, h1, h2⟩

/-! ### The grammar -/

theorem leg_part {k : Bytes} (h : Leg k) : Part k := by
  cases h with
  | selector h => exact .selector h
  | hash => exact .hash
  | first h => exact .first h
  | all h => exact .all h
  | call h => exact .call h
  | flatten h => exact .call h
  | join h => exact .call h
  | pretty h => exact .call h
  | array h => exact .array (balanced_entries (h.imp' fun _ _ => Spec.Entry.ent))
  | object h => exact .object (balanced_entries (h.imp' fun _ _ => Spec.Entry.ent))

theorem leg_ne_nil {k : Bytes} (h : Leg k) : k ≠ [] := by
  cases h with
  | selector h => exact h.2.2
  | call h => cases h <;> simp
  | flatten h => cases h <;> simp
  | join h => cases h <;> simp
  | pretty h => cases h <;> simp
  | _ => simp

theorem leg_step {k : Bytes} (h : Leg k) : Step k ∨ ∃ c r, k = c :: r ∧ c ∈ b!"@{[" := by
  have call : ∀ {n a m}, ModCall n a m → ∃ c r, m = c :: r ∧ c ∈ b!"@{[" := by
    intro n a m h
    cases h <;> exact ⟨_, _, rfl, by decide⟩
  cases h with
  | selector h => exact .inl (.selector h)
  | hash => exact .inl .hash
  | first h => exact .inl (.first h)
  | all h => exact .inl (.all h)
  | call h => exact .inr (call h)
  | flatten h => exact .inr (call h)
  | join h => exact .inr (call h)
  | pretty h => exact .inr (call h)
  | array h => exact .inr ⟨_, _, rfl, by decide⟩
  | object h => exact .inr ⟨_, _, rfl, by decide⟩

/-- What may follow a component. -/
def TailOk (t : Bytes) : Prop := t = [] ∨ ∃ c rest, t = c :: rest ∧ (c = c! '.' ∨ c = c! '|') ∧ Route rest

theorem route_split {path : Bytes} (h : Route path) : ∃ k t, path = k ++ t ∧ Leg k ∧ TailOk t := by
  cases h with
  | last h => exact ⟨_, [], by simp, h, .inl rfl⟩
  | more h hc hr => exact ⟨_, _, rfl, h, .inr ⟨_, _, rfl, hc, hr⟩⟩

/-- Up to the next pipe. -/
theorem route_dots {path : Bytes} (h : Route path) : ∃ ks t, path = dotPath ks ++ t ∧ ks ≠ [] ∧ (∀ k ∈ ks, Part k) ∧
    Route (dotPath ks) ∧ (t = [] ∨ ∃ rest, t = c! '|' :: rest ∧ Route rest) :=
  match h with
  | .last (k := k) h => ⟨[k], [], by simp [dotPath], by simp, by simpa using leg_part h, .last h, .inl rfl⟩
  | .more (k := k) (rest := rest) (c := c) h hc hr => by
    rcases hc with rfl | rfl
    · obtain ⟨ks, t, h1, h2, h3, h4, h5⟩ := route_dots hr
      cases ks with
      | nil => exact absurd rfl h2
      | cons k' ks =>
        refine ⟨k :: k' :: ks, t, ?_, by simp, ?_, .more h (.inl rfl) h4, h5⟩
        · rw [h1]; simp [dotPath]
        · intro x hx
          rcases List.mem_cons.1 hx with rfl | hx
          · exact leg_part h
          · exact h3 x hx
    · exact ⟨[k], _, rfl, by simp, by simpa using leg_part h, .last h, .inr ⟨_, rfl, hr⟩⟩

/-! ### Searching -/

/-- The rules give a result for the path in every text. -/
def MeansTot (path : Bytes) : Prop := ∀ (h : Nat) (doc : Bytes), SizedText h doc →
  ∃ r, Means doc path r ∧ SizedVal (h + path.length) r

/-- The rules give a result for the path in every array and object. -/
def SeeksTot (path : Bytes) : Prop := ∀ (h : Nat) (v : Bytes), HasHeight h v → IsCont v →
  ∃ r b, Seeks v path r b ∧ SizedVal (h + path.length) r

theorem then_total {t : Bytes} (ht : TailOk t) (ih : ∀ q, q.length < t.length → Route q → MeansTot q) {h : Nat} {x : Bytes}
    (hx : SizedVal h x) : ∃ r, Then x t r ∧ SizedVal (h + t.length) r := by
  rcases ht with rfl | ⟨c, rest, rfl, hc, hr⟩
  · exact ⟨x, .done, hx⟩
  · obtain ⟨r, h1, h2⟩ := ih rest (by simp) hr h x hx.text
    have h3 : SizedVal (h + (c :: rest).length) r := h2.mono (by simp only [List.length_cons]; omega)
    rcases hc with rfl | rfl
    · exact ⟨r, .dot h1, h3⟩
    · exact ⟨r, .pipe h1, h3⟩

open Classical in
theorem walks_total {h m : Nat} {k t : Bytes} (ht : ∀ x, SizedVal h x → ∃ r, Then x t r ∧ SizedVal m r)
    (hs : ∀ rest, t = c! '.' :: rest → (∀ c ∈ rest.head?, c ∉ b!"@{[") → ∀ x, HasHeight h x → IsCont x → ∃ r b, Seeks x rest r b ∧ SizedVal m r)
    (n : Nat) : ∀ es, weight es ≤ n → (∀ kl v, .member kl v ∈ es → HasHeight h v) → ∃ r b, Walks k t es r b ∧ SizedVal m r := by
  obtain ⟨r0, hr0, hm0⟩ := ht [] (sized_nil h)
  induction n with
  | zero =>
    intro es hn _
    match es with
    | [] => exact ⟨_, _, .nil hr0, hm0⟩
    | .stop :: es => exact ⟨_, _, .stop hr0, hm0⟩
    | .member kl v :: es => simp [weight] at hn
  | succ n ihn =>
    intro es hn hok
    match es with
    | [] => exact ⟨_, _, .nil hr0, hm0⟩
    | .stop :: es => exact ⟨_, _, .stop hr0, hm0⟩
    | .member kl v :: es =>
      have hv := hok kl v (by simp)
      have hes : ∀ a b, .member a b ∈ es → HasHeight h b := fun a b h => hok a b (List.mem_cons_of_mem _ h)
      simp only [weight] at hn
      by_cases hit : Selects k kl
      · by_cases hc : (kindOf v ≠ .object ∧ kindOf v ≠ .array) ∨ (∀ rest, t = c! '.' :: rest → ∃ c ∈ rest.head?, c ∈ b!"@{[")
        · obtain ⟨r, h1, h2⟩ := ht v hv.sized
          exact ⟨r, true, .hit hit hc h1, h2⟩
        · rw [not_or] at hc
          obtain ⟨hc1, hc2⟩ := hc
          have hcont : IsCont v := by
            unfold IsCont
            by_cases hk : kindOf v = .object
            · exact .inl hk
            · exact .inr (Classical.byContradiction fun hk' => hc1 ⟨hk, hk'⟩)
          obtain ⟨rest, hc3⟩ := Classical.not_forall.1 hc2
          obtain ⟨e, hc4⟩ := Classical.not_imp.1 hc3
          obtain ⟨r, b, h1, h2⟩ := hs rest e (fun c hc hx => hc4 ⟨c, hc, hx⟩) v hv hcont
          subst e
          cases b with
          | true => exact ⟨r, true, .into hit h1, h2⟩
          | false =>
            obtain ⟨es', g1, g2, _⟩ := met_one hv.value
            obtain ⟨r', b, h3, h4⟩ := ihn (es' ++ es) (by rw [weight_append]; omega) (by
              intro a b hx
              rcases List.mem_append.1 hx with hx | hx
              · obtain ⟨v', hv', u, kvs, q1, q2, q3⟩ := met_inside g1 a b hx
                rw [List.mem_singleton.1 hv'] at q1
                exact hasHeight_member (hasHeight_inside q1 hv) q2 (a, b) q3
              · exact hes a b hx)
            exact ⟨r', b, .again hit h1 g1 h3, h4⟩
      · obtain ⟨r, b, h1, h2⟩ := ihn es (by omega) hes
        exact ⟨r, b, .skip hit h1, h2⟩

theorem queryText_len {q lh rh : Bytes} {op : Option Op} (h : QueryText q lh op rh) : lh.length ≤ q.length := by
  cases h <;> (simp; omega)

/-- The answers of a query. -/
theorem tests_total {q lh rh : Bytes} {op : Option Op} (hq : QueryText q lh op rh) (hl : lh ≠ [] → Route lh) (hr : Right rh)
    (ih : lh ≠ [] → MeansTot lh) {h : Nat} {vs : List Bytes} (hv : ∀ v ∈ vs, HasHeight h v) :
    ∃ test : Bytes → Bool, ∀ v ∈ vs, Test lh op rh v (test v) := by
  have : ∀ v, ∃ b, v ∈ vs → Test lh op rh v b := by
    intro v
    by_cases hm : v ∈ vs
    · have hx := hv v hm
      by_cases hn : lh = []
      · subst hn
        obtain ⟨b, hb⟩ := compared_total hq hr hx.sized
        exact ⟨b, fun _ => .self hb⟩
      · obtain ⟨x, h1, h2⟩ := ih hn h v (hasHeight_text hx)
        obtain ⟨b, hb⟩ := compared_total hq hr h2
        exact ⟨b, fun _ => .path hn h1 hb⟩
    · exact ⟨false, fun h => absurd h hm⟩
  exact Classical.axiomOfChoice this

/-- The rest of the path in each element. -/
theorem map_total {q : Bytes} (ih : MeansTot q) {h : Nat} {vs : List Bytes}
    (hv : ∀ v ∈ vs, HasHeight h v) : ∃ f : Bytes → Bytes, ∀ v ∈ vs, Means v q (f v) ∧ SizedVal (h + q.length) (f v) := by
  have : ∀ v, ∃ r, v ∈ vs → Means v q r ∧ SizedVal (h + q.length) r := by
    intro v
    by_cases hm : v ∈ vs
    · obtain ⟨x, h1, h2⟩ := ih h v (hasHeight_text (hv v hm))
      exact ⟨x, fun _ => ⟨h1, h2⟩⟩
    · exact ⟨[], fun h => absurd h hm⟩
  exact Classical.axiomOfChoice this

theorem filter_array {n : Nat} {rs : List Bytes} (h : ∀ r ∈ rs, SizedVal n r) : HasHeight (n + 1) (arrayText (rs.filter fun x => x ≠ [])) := by
  refine hasHeight_array fun r hr => ?_
  rw [List.mem_filter] at hr
  exact ⟨by simpa using hr.2, h r hr.1⟩

theorem pipe_head {t : Bytes} (h : t = [] ∨ ∃ rest, t = c! '|' :: rest ∧ Route rest) : (∀ c ∈ t.head?, c = c! '|') ∧ TailOk t := by
  rcases h with rfl | ⟨rest, rfl, hr⟩
  · exact ⟨by simp, .inl rfl⟩
  · exact ⟨by simp, .inr ⟨_, _, rfl, .inr rfl, hr⟩⟩

/-- Either the path ends or a pipe follows, or a dot follows. -/
theorem tail_cases {t : Bytes} (h : TailOk t) : (t = [] ∨ ∃ rest, t = c! '|' :: rest ∧ Route rest) ∨
    ∃ rest, t = c! '.' :: rest ∧ Route rest := by
  rcases h with h | ⟨c, rest, rfl, rfl | rfl, hr⟩
  · exact .inl (.inl h)
  · exact .inr ⟨rest, rfl, hr⟩
  · exact .inl (.inr ⟨rest, rfl, hr⟩)

theorem rows_total {k t : Bytes} (hk : Leg k) (hstep : ∀ c ∈ k.head?, c ∉ b!"@{[") (ht : TailOk t)
    (ih : ∀ q, q.length < (k ++ t).length → Route q → MeansTot q) {h : Nat} {vs : List Bytes}
    (hv : ∀ v ∈ vs, HasHeight h v) (hnum : ∀ n, HasHeight 0 (numeral n)) : ∃ r b, Rows vs (k ++ t) r b ∧ SizedVal (h + (k ++ t).length) r := by
  have hkl : 0 < k.length := List.length_pos_iff.2 (leg_ne_nil hk)
  rw [List.length_append] at ih ⊢
  -- what follows
  have thn : ∀ {t' : Bytes} {x : Bytes} {n : Nat}, TailOk t' → t'.length ≤ t.length → n + t'.length ≤ h + (k.length + t.length) → SizedVal n x →
      ∃ r, Then x t' r ∧ SizedVal (h + (k.length + t.length)) r := by
    intro t' x n ht' hle hn hx
    obtain ⟨r, h1, h2⟩ := then_total ht' (fun q hq hr => ih q (by omega) hr) hx
    exact ⟨r, h1, h2.mono hn⟩
  have hcase : (∃ _ : Selector k, True) ∨ k = b!"#" ∨ (∃ q lh rh op, k = b!"#(" ++ (q ++ b!")") ∧ QueryText q lh op rh ∧ (lh ≠ [] → Route lh) ∧ Right rh) ∨
      (∃ q lh rh op, k = b!"#(" ++ (q ++ b!")#") ∧ QueryText q lh op rh ∧ (lh ≠ [] → Route lh) ∧ Right rh) ∨ ∃ c r, k = c :: r ∧ c ∈ b!"@{[" := by
    have call : ∀ {n a m}, ModCall n a m → ∃ c r, m = c :: r ∧ c ∈ b!"@{[" := by
      intro n a m h
      cases h <;> exact ⟨_, _, rfl, by decide⟩
    cases hk with
    | selector h => exact .inl ⟨h, trivial⟩
    | hash => exact .inr (.inl rfl)
    | first h1 h2 h3 => exact .inr (.inr (.inl ⟨_, _, _, _, rfl, h1, h2, h3⟩))
    | all h1 h2 h3 => exact .inr (.inr (.inr (.inl ⟨_, _, _, _, rfl, h1, h2, h3⟩)))
    | call h => exact .inr (.inr (.inr (.inr (call h))))
    | flatten h => exact .inr (.inr (.inr (.inr (call h))))
    | join h => exact .inr (.inr (.inr (.inr (call h))))
    | pretty h => exact .inr (.inr (.inr (.inr (call h))))
    | array h => exact .inr (.inr (.inr (.inr ⟨_, _, rfl, by decide⟩)))
    | object h => exact .inr (.inr (.inr (.inr ⟨_, _, rfl, by decide⟩)))
  rcases hcase with ⟨hs, _⟩ | rfl | ⟨q, lh, rh, op, rfl, hq, hl, hr⟩ | ⟨q, lh, rh, op, rfl, hq, hl, hr⟩ | ⟨c, r, rfl, hc⟩
  · -- an index
    by_cases hx : ∃ n e, IndexText k n ∧ n < 2 ^ 63 ∧ vs[n]? = some e
    · obtain ⟨n, e, h1, h2, h3⟩ := hx
      obtain ⟨r, g1, g2⟩ := thn ht (Nat.le_refl _) (by omega) (hv e (List.mem_of_getElem? h3)).sized
      exact ⟨r, true, .elem hs h1 h2 h3 g1, g2⟩
    · obtain ⟨r, g1, g2⟩ := thn ht (Nat.le_refl _) (by omega) (sized_nil h)
      refine ⟨r, false, .beyond hs (fun n h1 h2 => ?_) g1, g2⟩
      cases h3 : vs[n]? with
      | none => rfl
      | some e => exact absurd ⟨n, e, h1, h2, h3⟩ hx
  · -- #
    rcases tail_cases ht with ht' | ⟨rest, rfl, hr⟩
    · obtain ⟨r, g1, g2⟩ := thn ht (Nat.le_refl _) (by omega) ((hnum vs.length).mono (Nat.zero_le h)).sized
      exact ⟨r, true, .count (pipe_head ht').1 g1, g2⟩
    · obtain ⟨ks, t', e, h2, h3, h4, h5⟩ := route_dots hr
      have hlen : (dotPath ks).length + t'.length = rest.length := by rw [e]; simp
      simp only [List.length_cons] at ih thn ⊢
      obtain ⟨f, hf⟩ := map_total (ih (dotPath ks) (by omega) h4) hv
      obtain ⟨r, g1, g2⟩ := thn (n := h + (dotPath ks).length + 1) (pipe_head h5).2 (by omega) (by simp only [List.length_cons, List.length_nil] at *; omega)
        (filter_array (rs := vs.map f) (by
          intro x hx
          obtain ⟨v, hv, rfl⟩ := List.mem_map.1 hx
          exact (hf v hv).2)).sized
      refine ⟨r, true, ?_, g2⟩
      rw [e]
      exact .map h3 h2 (pipe_head h5).1 (fun v hv => (hf v hv).1) g1
  · -- the first match
    have hql := queryText_len hq
    obtain ⟨test, htest⟩ := tests_total hq hl hr (fun hn => ih lh (by simp; omega) (hl hn)) hv
    cases hf : vs.find? test with
    | some e =>
      obtain ⟨r, g1, g2⟩ := thn ht (Nat.le_refl _) (by omega) (hv e (List.mem_of_find?_eq_some hf)).sized
      exact ⟨r, true, .first hq htest hf g1, g2⟩
    | none =>
      obtain ⟨r, g1, g2⟩ := thn ht (Nat.le_refl _) (by omega) (sized_nil h)
      exact ⟨r, false, .firstNone hq htest hf g1, g2⟩
  · -- all matches
    have hql := queryText_len hq
    obtain ⟨test, htest⟩ := tests_total hq hl hr (fun hn => ih lh (by simp; omega) (hl hn)) hv
    have hvf : ∀ v ∈ vs.filter test, HasHeight h v := fun v hm => hv v (List.mem_of_mem_filter hm)
    rcases tail_cases ht with ht' | ⟨rest, rfl, hr⟩
    · obtain ⟨r, g1, g2⟩ := thn (n := h + 1) ht (Nat.le_refl _) (by omega)
        (hasHeight_array (rs := vs.filter test) (n := h) fun r hr => ⟨isValue_ne_nil (hvf r hr).value, (hvf r hr).sized⟩).sized
      exact ⟨r, true, .all hq htest (pipe_head ht').1 g1, g2⟩
    · obtain ⟨ks, t', e, h2, h3, h4, h5⟩ := route_dots hr
      have hlen : (dotPath ks).length + t'.length = rest.length := by rw [e]; simp
      simp only [List.length_cons] at ih thn ⊢
      obtain ⟨f, hf⟩ := map_total (ih (dotPath ks) (by omega) h4) hvf
      obtain ⟨r, g1, g2⟩ := thn (n := h + (dotPath ks).length + 1) (pipe_head h5).2 (by omega) (by omega)
        (filter_array (rs := (vs.filter test).map f) (by
          intro x hx
          obtain ⟨v, hv, rfl⟩ := List.mem_map.1 hx
          exact (hf v hv).2)).sized
      refine ⟨r, true, ?_, g2⟩
      rw [e]
      exact .allMap hq htest h3 h2 (pipe_head h5).1 (fun v hv => (hf v hv).1) g1
  · exact absurd hc (hstep c (by simp))

theorem numeral_height (n : Nat) : HasHeight 0 (numeral n) := by
  have hv : IsValue (numeral n) := .num ⟨[], numeral n, [], [], by simp, .inl rfl, (numeral_spec n).2.2.2, .inl rfl, .inl rfl⟩
  obtain ⟨c, r, e, hc⟩ := digit_first (n := n)
  have hk : kindOf (numeral n) ≠ .object ∧ kindOf (numeral n) ≠ .array := by
    rw [e]
    unfold kindOf
    have : c ≠ c! '{' ∧ c ≠ c! '[' := by unfold IsDigit at hc; grind
    grind
  exact ⟨_, .leaf hv hk.1 hk.2, by simp [Doc.height]⟩

theorem head_append {k t : Bytes} (hk : k ≠ []) : (k ++ t).head? = k.head? := by
  cases k with
  | nil => exact absurd rfl hk
  | cons c k => rfl

theorem seeks_total {k t : Bytes} (hk : Leg k) (hstep : ∀ c ∈ k.head?, c ∉ b!"@{[") (ht : TailOk t)
    (ih : ∀ q, q.length < (k ++ t).length → Route q → MeansTot q)
    (ihs : ∀ q, q.length < (k ++ t).length → Route q → (∀ c ∈ q.head?, c ∉ b!"@{[") → SeeksTot q) : SeeksTot (k ++ t) := by
  intro h v hv hc
  have hs : Step k := by
    rcases leg_step hk with h | ⟨c, r, rfl, h⟩
    · exact h
    · exact absurd h (hstep c (by simp))
  rcases isCont_cases hv.value hc with ⟨kvs, ho⟩ | ⟨vs, ha⟩
  · rw [List.length_append] at ih ihs ⊢
    obtain ⟨r, b, h1, h2⟩ := walks_total (h := h) (m := h + (k.length + t.length)) (k := k) (t := t) (by
      intro x hx
      obtain ⟨r, h1, h2⟩ := then_total ht (fun q hq hr => ih q (by omega) hr) hx
      exact ⟨r, h1, h2.mono (by omega)⟩) (by
      intro rest e hh x hx hc
      subst e
      rcases tail_cases ht with (ht | ⟨rest', e, _⟩) | ⟨rest', e, hr⟩
      · cases ht
      · cases e
      · cases e
        simp only [List.length_cons] at ih ihs ⊢
        obtain ⟨r, b, h1, h2⟩ := ihs rest (by omega) hr hh h x hx hc
        exact ⟨r, b, h1, h2.mono (by omega)⟩) _ (kvs.map fun m => .member m.1 m.2) (Nat.le_refl _) (by
      intro kl x hx
      obtain ⟨m, hm, e⟩ := List.mem_map.1 hx
      cases e
      exact hasHeight_member hv ho m hm)
    exact ⟨r, b, .obj ho hs h1, h2⟩
  · obtain ⟨r, b, h1, h2⟩ := rows_total hk hstep ht ih (hasHeight_elem hv ha) numeral_height
    exact ⟨r, b, .arr ha h1, h2⟩

theorem entry_len {t k q : Bytes} (h : Entry t k q) : q.length ≤ t.length := by
  cases h <;> (simp; try omega)

theorem entries_len {ts : List Bytes} {es : List (Bytes × Bytes)} (h : Aligned (fun t e => Entry t e.1 e.2) ts es) :
    ∀ e ∈ es, e.2.length ≤ (commaSep ts).length := by
  induction h with
  | nil => simp
  | @cons t e ts es h hs ih =>
    have hl := entry_len h
    have hc : ∀ u, u ∈ [t.length, (commaSep ts).length] → u ≤ (commaSep (t :: ts)).length := by
      cases ts with
      | nil => simp [commaSep]
      | cons t' ts => simp [commaSep]; omega
    intro x hx
    rcases List.mem_cons.1 hx with rfl | hx
    · exact Nat.le_trans hl (hc _ (by simp))
    · exact Nat.le_trans (ih x hx) (hc _ (by simp))

/-- The sub paths of a multipath. -/
theorem subs_total {es : List (Bytes × Bytes)} {n h : Nat} {doc : Bytes} (hr : ∀ e ∈ es, Route e.2) (hl : ∀ e ∈ es, e.2.length ≤ n)
    (ih : ∀ q, q.length ≤ n → Route q → MeansTot q) (hd : SizedText h doc) :
    ∃ f : Bytes → Bytes, ∀ e ∈ es, Means doc e.2 (f e.2) ∧ SizedVal (h + n) (f e.2) := by
  have : ∀ q, ∃ r, (∃ e ∈ es, e.2 = q) → Means doc q r ∧ SizedVal (h + n) r := by
    intro q
    by_cases hm : ∃ e ∈ es, e.2 = q
    · obtain ⟨e, he, rfl⟩ := hm
      obtain ⟨x, h1, h2⟩ := ih e.2 (hl e he) (hr e he) h doc hd
      exact ⟨x, fun _ => ⟨h1, h2.mono (by have := hl e he; omega)⟩⟩
    · exact ⟨[], fun h => absurd h hm⟩
  obtain ⟨f, hf⟩ := Classical.axiomOfChoice this
  exact ⟨f, fun e he => hf e.2 ⟨e, he, rfl⟩⟩

theorem quoted_lit (k : Bytes) : StrLit (Spec.quoted k) := by
  rw [← jsonString_quoted]
  exact ⟨_, strBody_escape k, by simp [jsonString]⟩

theorem call_len {n a m : Bytes} (h : ModCall n a m) : 1 ≤ m.length := by cases h <;> simp

theorem means_step_total {k t : Bytes} (hk : Leg k) (hs : Step k) (ht : TailOk t)
    (ih : ∀ q, q.length < (k ++ t).length → Route q → MeansTot q) (hseek : SeeksTot (k ++ t)) : MeansTot (k ++ t) := by
  intro h doc hd
  have hkl : 0 < k.length := List.length_pos_iff.2 (leg_ne_nil hk)
  have thn : ∃ r, Then [] t r ∧ SizedVal (h + (k ++ t).length) r := by
    obtain ⟨r, h1, h2⟩ := then_total ht (fun q hq hr => ih q (by simp; omega) hr) (sized_nil h)
    exact ⟨r, h1, h2.mono (by simp)⟩
  rcases hd with rfl | ⟨v, hpad, hv⟩
  · obtain ⟨r, h1, h2⟩ := thn
    exact ⟨r, .empty hs h1, h2⟩
  · by_cases hc : IsCont v
    · obtain ⟨r, b, h1, h2⟩ := hseek h v hv hc
      exact ⟨r, .look hpad h1, h2⟩
    · unfold IsCont at hc
      rw [not_or] at hc
      obtain ⟨r, h1, h2⟩ := thn
      exact ⟨r, .scalar hv.value hpad hc.1 hc.2 hs h1, h2⟩

theorem means_call_total {n a k t : Bytes} (hm : ModCall n a k) (ht : TailOk t)
    (ih : ∀ q, q.length < (k ++ t).length → Route q → MeansTot q)
    (hw : ∀ (h : Nat) (doc : Bytes), SizedText h doc → ∃ out x, Writes n a doc out ∧ Kept out x ∧ SizedVal (h + 1) x) :
    MeansTot (k ++ t) := by
  intro h doc hd
  have hkl := call_len hm
  obtain ⟨out, x, h1, h2, h3⟩ := hw h doc hd
  obtain ⟨r, h4, h5⟩ := then_total ht (fun q hq hr => ih q (by simp; omega) hr) h3
  exact ⟨r, .call hm h1 h2 h4, h5.mono (by simp; omega)⟩

theorem kept_of_text {n a doc : Bytes} {h : Nat} (hw : ∃ out, Writes n a doc out ∧ SizedText (h + 1) out) :
    ∃ out x, Writes n a doc out ∧ Kept out x ∧ SizedVal (h + 1) x := by
  obtain ⟨out, h1, h2⟩ := hw
  obtain ⟨x, h3, h4⟩ := kept_total h2
  exact ⟨out, x, h1, h3, h4⟩

theorem means_leg_total {k t : Bytes} (hk : Leg k) (ht : TailOk t)
    (ih : ∀ q, q.length < (k ++ t).length → Route q → MeansTot q)
    (hseek : Step k → (∀ c ∈ k.head?, c ∉ b!"@{[") → SeeksTot (k ++ t)) (hsel : Selector k → ∀ c ∈ k.head?, c ∉ b!"@{[") : MeansTot (k ++ t) := by
  cases hk with
  | selector hs => exact means_step_total (.selector hs) (.selector hs) ht ih (hseek (.selector hs) (hsel hs))
  | hash => exact means_step_total .hash .hash ht ih (hseek .hash (by decide))
  | first h1 h2 h3 => exact means_step_total (.first h1 h2 h3) (.first h1) ht ih (hseek (.first h1) (by simp))
  | all h1 h2 h3 => exact means_step_total (.all h1 h2 h3) (.all h1) ht ih (hseek (.all h1) (by simp))
  | call hm hn => exact means_call_total hm ht ih fun h doc hd => kept_of_text (writes_call hn hd)
  | flatten hm h1 h2 => exact means_call_total hm ht ih fun h doc hd => kept_of_text (writes_flatten_total h1 h2 hd)
  | join hm h1 h2 => exact means_call_total hm ht ih fun h doc hd => kept_of_text (writes_join_total h1 h2 hd)
  | pretty hm h1 h2 h3 h4 h5 h6 h7 h8 h9 h10 =>
    refine means_call_total hm ht ih fun h doc hd => ?_
    obtain ⟨out, x, g1, g2, g3⟩ := writes_pretty_total (h := h) h1 h2 h3 h4 h5 h6 h7 h8 h9 h10 hd
    exact ⟨out, x, g1, g2, g3.mono (by omega)⟩
  | @array ts es h1 h2 h3 =>
    intro h doc hd
    have e : (c! '[' :: (commaSep ts ++ [c! ']'])) ++ t = c! '[' :: (commaSep ts ++ c! ']' :: t) := by simp
    have el : (c! '[' :: (commaSep ts ++ [c! ']']) ++ t).length = (commaSep ts).length + 2 + t.length := by simp; omega
    rw [el] at ih ⊢
    obtain ⟨f, hf⟩ := subs_total h3 (entries_len h1) (fun q hq hr => ih q (by omega) hr) hd
    obtain ⟨r, h4, h5⟩ := then_total ht (fun q hq hr => ih q (by omega) hr)
      (filter_array (n := h + (commaSep ts).length) (rs := es.map fun e => f e.2) (by
        intro x hx
        obtain ⟨v, hv, rfl⟩ := List.mem_map.1 hx
        exact (hf v hv).2)).sized
    refine ⟨r, ?_, h5.mono (by omega)⟩
    rw [e]
    exact .array h1 h2 (fun e he => (hf e he).1) h4
  | @object ts es h1 h2 h3 =>
    intro h doc hd
    have e : (c! '{' :: (commaSep ts ++ [c! '}'])) ++ t = c! '{' :: (commaSep ts ++ c! '}' :: t) := by simp
    have el : (c! '{' :: (commaSep ts ++ [c! '}']) ++ t).length = (commaSep ts).length + 2 + t.length := by simp; omega
    rw [el] at ih ⊢
    obtain ⟨f, hf⟩ := subs_total h3 (entries_len h1) (fun q hq hr => ih q (by omega) hr) hd
    obtain ⟨r, h4, h5⟩ := then_total ht (fun q hq hr => ih q (by omega) hr)
      (hasHeight_object (n := h + (commaSep ts).length) (kvs := (es.map fun e => (Spec.quoted e.1, f e.2)).filter fun m => m.2 ≠ []) (by
        intro m hm
        rw [List.mem_filter] at hm
        obtain ⟨v, hv, rfl⟩ := List.mem_map.1 hm.1
        exact ⟨quoted_lit _, by simpa using hm.2, (hf v hv).2⟩)).sized
    refine ⟨r, ?_, h5.mono (by omega)⟩
    rw [e]
    exact .object h1 h2 (fun e he => (hf e he).1) h4

theorem selector_head {k : Bytes} (h : Selector k) : ∀ c ∈ k.head?, c ∉ b!"@{[" := by
  intro c hc hx
  have := h.2.1 c hc
  revert this
  have : c = c! '@' ∨ c = c! '{' ∨ c = c! '[' := by simpa using hx
  rcases this with rfl | rfl | rfl <;> decide

theorem route_total_aux (n : Nat) : ∀ path : Bytes, path.length = n → Route path →
    MeansTot path ∧ ((∀ c ∈ path.head?, c ∉ b!"@{[") → SeeksTot path) := by
  induction n using Nat.strongRecOn with
  | ind n ih =>
    intro path hn hr
    obtain ⟨k, t, rfl, hk, ht⟩ := route_split hr
    have ih1 : ∀ q, q.length < (k ++ t).length → Route q → MeansTot q := fun q hq hr => (ih _ (by omega) q rfl hr).1
    have ih2 : ∀ q, q.length < (k ++ t).length → Route q → (∀ c ∈ q.head?, c ∉ b!"@{[") → SeeksTot q :=
      fun q hq hr => (ih _ (by omega) q rfl hr).2
    refine ⟨means_leg_total hk ht ih1 (fun _ h => seeks_total hk h ht ih1 ih2) selector_head, fun h => ?_⟩
    rw [head_append (leg_ne_nil hk)] at h
    exact seeks_total hk h ht ih1 ih2

/-- The rules give a result. -/
theorem route_total {path : Bytes} (hr : Route path) : MeansTot path := (route_total_aux _ path rfl hr).1

/-- The rules give a result for JSON Lines. -/
theorem lines_total {path doc : Bytes} {vs : List Bytes} {h : Nat} (hr : Route path) (hs : ∀ c ∈ path.head?, c ∉ b!"@{[")
    (hj : JsonLines doc vs) (hv : ∀ v ∈ vs, HasHeight h v) :
    ∃ r, Means doc (b!".." ++ path) r ∧ SizedVal (h + path.length) r := by
  obtain ⟨k, t, rfl, hk, ht⟩ := route_split hr
  rw [head_append (leg_ne_nil hk)] at hs
  obtain ⟨r, b, h1, h2⟩ := rows_total hk hs ht (fun q _ hr => route_total hr) hv numeral_height
  exact ⟨r, .lines hj h1, h2⟩

end Gjson
