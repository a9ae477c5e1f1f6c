import Verif.SpecOrder
import Verif.Lemmas.Find
import Verif.Lemmas.Resort
import Verif.Lemmas.Peer
import Verif.Props.Format
/-
Two documents are equal up to the order of members iff sorting makes them equal.
-/
namespace Gjson
open Spec

theorem sortElems_map : ∀ ds, sortElems ds = ds.map Doc.sort
  | [] => rfl
  | d :: r => by rw [sortElems, sortElems_map r]; rfl

theorem sortVals_map : ∀ ms, sortVals ms = ms.map fun m => (m.1, m.2.sort)
  | [] => rfl
  | (k, d) :: r => by rw [sortVals, sortVals_map r]; rfl

/-- A sorted list is given by the members with each key. -/
theorem sorted_ext : ∀ {l l' : List (Bytes × Doc)}, l.Pairwise (fun x y => rawKey x.1 ≤ rawKey y.1) →
    l'.Pairwise (fun x y => rawKey x.1 ≤ rawKey y.1) →
    (∀ k, l.filter (fun m => rawKey m.1 = k) = l'.filter (fun m => rawKey m.1 = k)) → l = l'
  | [], [], _, _, _ => rfl
  | [], b :: r', _, _, h => by have := h (rawKey b.1); simp at this
  | a :: r, [], _, _, h => by have := h (rawKey a.1); simp at this
  | a :: r, b :: r', h1, h2, h => by
    have p1 := List.pairwise_cons.1 h1
    have p2 := List.pairwise_cons.1 h2
    have m1 : rawKey b.1 ≤ rawKey a.1 := by
      have : a ∈ (b :: r').filter (fun m => rawKey m.1 = rawKey a.1) := by rw [← h]; simp
      rcases List.mem_cons.1 (List.mem_filter.1 this).1 with rfl | hm
      · exact List.le_refl _
      · exact p2.1 a hm
    have m2 : rawKey a.1 ≤ rawKey b.1 := by
      have : b ∈ (a :: r).filter (fun m => rawKey m.1 = rawKey b.1) := by rw [h]; simp
      rcases List.mem_cons.1 (List.mem_filter.1 this).1 with rfl | hm
      · exact List.le_refl _
      · exact p1.1 b hm
    have e : rawKey a.1 = rawKey b.1 := List.le_antisymm m2 m1
    have hab : a = b := by
      have := h (rawKey a.1)
      simp [e] at this
      exact this.1
    subst hab
    rw [sorted_ext p1.2 p2.2 fun k => ?_]
    have := h k
    simp only [List.filter_cons] at this
    split at this
    · exact (List.cons.inj this).2
    · exact this

/-- A document with a text. -/
def Denotable (d : Doc) : Prop := ∃ v, Denotes v d

theorem denotable_elem {ds : List Doc} (h : Denotable (.arr ds)) : ∀ d ∈ ds, Denotable d := by
  obtain ⟨v, h⟩ := h
  cases h with
  | arrEmpty => simp
  | arr _ _ h3 =>
    intro d hd
    obtain ⟨e, he, rfl⟩ := List.mem_map.1 hd
    exact ⟨_, h3 e he⟩

theorem denotable_member {ms : List (Bytes × Doc)} (h : Denotable (.obj ms)) : ∀ m ∈ ms, StrLit m.1 ∧ Denotable m.2 := by
  obtain ⟨v, h⟩ := h
  cases h with
  | objEmpty => simp
  | obj _ h2 h3 =>
    intro d hd
    obtain ⟨e, he, rfl⟩ := List.mem_map.1 hd
    exact ⟨(h2 e he).2.1, _, h3 e he⟩

theorem rawKey_inj {k k' : Bytes} (h : StrLit k) (h' : StrLit k') (e : rawKey k = rawKey k') : k = k' := by
  obtain ⟨b, _, rfl⟩ := h
  obtain ⟨b', _, rfl⟩ := h'
  simp [rawKey] at e
  rw [e]

theorem valuesOf_id (k : Bytes) (ms : List (Bytes × Doc)) : valuesOf id k ms = (ms.filter fun m => m.1 = k).map Prod.snd := rfl

theorem filter_key (k : Bytes) (ms : List (Bytes × Doc)) :
    (ms.filter fun m => m.1 = k) = (valuesOf id k ms).map fun d => (k, d) := by
  induction ms with
  | nil => rfl
  | cons m r ih =>
    rw [valuesOf_id] at ih ⊢
    rw [List.filter_cons]
    split
    · rename_i h
      simp only [decide_eq_true_eq] at h
      rw [List.map_cons, List.map_cons, ← ih]
      congr 1
      exact Prod.ext h rfl
    · exact ih

theorem valuesOf_sortVals (k : Bytes) (ms : List (Bytes × Doc)) : valuesOf id k (sortVals ms) = (valuesOf id k ms).map Doc.sort := by
  unfold valuesOf
  rw [sortVals_map, List.filter_map, List.map_map, List.map_map]
  rfl

theorem mem_sortVals {m : Bytes × Doc} {ms : List (Bytes × Doc)} (h : m ∈ sortVals ms) : ∃ d, (m.1, d) ∈ ms := by
  rw [sortVals_map] at h
  obtain ⟨x, hx, rfl⟩ := List.mem_map.1 h
  exact ⟨_, hx⟩

/-- Sorting gives the same members if the values of each key are the same. -/
theorem sortMembers_ext {l l' : List (Bytes × Doc)} (h : ∀ m ∈ l, StrLit m.1) (h' : ∀ m ∈ l', StrLit m.1)
    (e : ∀ k, valuesOf id k l = valuesOf id k l') : sortMembers l = sortMembers l' := by
  refine sorted_ext (C38_order l).2.1 (C38_order l').2.1 fun r => ?_
  rw [(C38_order l).2.2, (C38_order l').2.2]
  have key : ∀ l : List (Bytes × Doc), (∀ m ∈ l, StrLit m.1) → ∀ k, StrLit k → rawKey k = r →
      (l.filter fun m => rawKey m.1 = r) = l.filter fun m => m.1 = k := by
    intro l h k hk e
    refine List.filter_congr fun m hm => ?_
    rw [decide_eq_decide]
    exact ⟨fun he => rawKey_inj (h m hm) hk (he.trans e.symm), fun he => by rw [he, e]⟩
  by_cases hx : ∃ k, StrLit k ∧ rawKey k = r
  · obtain ⟨k, hk, hr⟩ := hx
    rw [key l h k hk hr, key l' h' k hk hr, filter_key, filter_key, e]
  · rw [List.filter_eq_nil_iff.2, List.filter_eq_nil_iff.2]
    · intro m hm hr
      exact hx ⟨m.1, h' m hm, by simpa using hr⟩
    · intro m hm hr
      exact hx ⟨m.1, h m hm, by simpa using hr⟩

theorem mem_valuesOf {k : Bytes} {ms : List (Bytes × Doc)} {d : Doc} (h : d ∈ valuesOf id k ms) : (k, d) ∈ ms := by
  obtain ⟨m, hm, rfl⟩ := List.mem_map.1 h
  obtain ⟨h1, h2⟩ := List.mem_filter.1 hm
  have : m.1 = k := by simpa using h2
  subst this
  exact h1

theorem sort_of_same {d d' : Doc} (h : SameMembers id d d') : Denotable d → Denotable d' → d.sort = d'.sort := by
  induction h with
  | leaf => intros; rfl
  | @arr ps _ ih =>
    intro h1 h2
    rw [Doc.sort, Doc.sort, sortElems_map, sortElems_map, List.map_map, List.map_map]
    congr 1
    refine List.map_congr_left fun p hp => ih p hp ?_ ?_
    · exact denotable_elem h1 _ (List.mem_map_of_mem hp)
    · exact denotable_elem h2 _ (List.mem_map_of_mem hp)
  | @obj ms ms' ps _ e1 e2 ih =>
    intro h1 h2
    rw [Doc.sort, Doc.sort]
    congr 1
    refine sortMembers_ext ?_ ?_ fun k => ?_
    · intro m hm
      obtain ⟨d, hd⟩ := mem_sortVals hm
      exact (denotable_member h1 _ hd).1
    · intro m hm
      obtain ⟨d, hd⟩ := mem_sortVals hm
      exact (denotable_member h2 _ hd).1
    · rw [valuesOf_sortVals, valuesOf_sortVals, ← e1, ← e2, List.map_map, List.map_map]
      refine List.map_congr_left fun p hp => ih k p hp ?_ ?_
      · exact (denotable_member h1 _ (mem_valuesOf (e1 k ▸ List.mem_map_of_mem hp))).2
      · exact (denotable_member h2 _ (mem_valuesOf (e2 k ▸ List.mem_map_of_mem hp))).2

theorem valuesOf_sortMembers (k : Bytes) (ms : List (Bytes × Doc)) : valuesOf id k (sortMembers ms) = valuesOf id k ms := by
  have key : ∀ l : List (Bytes × Doc), (l.filter fun m => m.1 = k) = (l.filter fun m => rawKey m.1 = rawKey k).filter fun m => m.1 = k := by
    intro l
    rw [List.filter_filter]
    refine List.filter_congr fun m _ => ?_
    by_cases h : m.1 = k <;> simp [h]
  rw [valuesOf_id, valuesOf_id]
  rw [key, (C38_order ms).2.2, ← key]

theorem zip_of_map {ds ds' : List Doc} (e : ds.map Doc.sort = ds'.map Doc.sort) :
    (ds.zip ds').map Prod.fst = ds ∧ (ds.zip ds').map Prod.snd = ds' ∧ ∀ p ∈ ds.zip ds', p.1 ∈ ds ∧ p.1.sort = p.2.sort := by
  induction ds generalizing ds' with
  | nil => cases ds' <;> simp at e ⊢
  | cons d r ih =>
    cases ds' with
    | nil => simp at e
    | cons d' r' =>
      rw [List.map_cons, List.map_cons, List.cons.injEq] at e
      obtain ⟨h1, h2, h3⟩ := ih e.2
      rw [List.zip_cons_cons, List.map_cons, List.map_cons, h1, h2]
      refine ⟨rfl, rfl, List.forall_mem_cons.2 ⟨⟨by simp, e.1⟩, fun p hp => ⟨List.mem_cons_of_mem _ (h3 p hp).1, (h3 p hp).2⟩⟩⟩

theorem same_of_sort : ∀ {d d' : Doc}, d.sort = d'.sort → SameMembers id d d'
  | .leaf t, d', e => by
    cases d' <;> simp [Doc.sort] at e
    subst e
    exact .leaf
  | .arr es, d', e => by
    cases d' with
    | arr es' =>
      simp only [Doc.sort, Doc.arr.injEq, sortElems_map] at e
      obtain ⟨h1, h2, h3⟩ := zip_of_map e
      have : SameMembers id (.arr ((es.zip es').map Prod.fst)) (.arr ((es.zip es').map Prod.snd)) :=
        .arr fun p hp =>
          have := List.sizeOf_lt_of_mem (h3 p hp).1
          same_of_sort (h3 p hp).2
      rwa [h1, h2] at this
    | leaf => simp [Doc.sort] at e
    | obj => simp [Doc.sort] at e
  | .obj ms, d', e => by
    cases d' with
    | obj ms' =>
      simp only [Doc.sort, Doc.obj.injEq] at e
      have hk : ∀ k, (valuesOf id k ms).map Doc.sort = (valuesOf id k ms').map Doc.sort := by
        intro k
        rw [← valuesOf_sortVals, ← valuesOf_sortVals, ← valuesOf_sortMembers k (sortVals ms), e, valuesOf_sortMembers]
      refine .obj (ps := fun k => (valuesOf id k ms).zip (valuesOf id k ms')) (fun k p hp => ?_) (fun k => (zip_of_map (hk k)).1)
        (fun k => (zip_of_map (hk k)).2.1)
      have hm := (zip_of_map (hk k)).2.2 p hp
      have h1 := List.sizeOf_lt_of_mem (mem_valuesOf hm.1)
      have h2 : sizeOf p.1 < sizeOf (k, p.1) := by simp
      exact same_of_sort hm.2
    | leaf => simp [Doc.sort] at e
    | arr => simp [Doc.sort] at e
termination_by d => sizeOf d
decreasing_by
  all_goals simp_wf; omega

/-- Documents with texts are equal up to the order of members iff sorting makes them equal. -/
theorem same_iff_sort {d d' : Doc} (h : Denotable d) (h' : Denotable d') : SameMembers id d d' ↔ d.sort = d'.sort :=
  ⟨fun hs => sort_of_same hs h h', same_of_sort⟩

theorem toks_inj {d d' : Doc} (h : Denotable d) (h' : Denotable d') (e : d.toks = d'.toks) : d = d' := by
  obtain ⟨v, h⟩ := h
  obtain ⟨v', h'⟩ := h'
  have h1 := denotes_bare h
  rw [e] at h1
  exact denotes_fun h1 (denotes_bare h')

/-! ### Looking up keys -/

theorem arr_text {v : Bytes} {ds : List Doc} (h : Denotes v (.arr ds)) : ∃ vs, IsArray v vs ∧ Aligned Denotes vs ds := by
  rcases isCont_cases (value_of_denotes h) (.inr (denotes_kind h)) with ⟨kvs, ho⟩ | ⟨vs, ha⟩
  · have := (denotes_kind h).symm.trans (IsObject.kindOf ho); cases this
  · obtain ⟨ds', e, h'⟩ := denotes_elems h ha
    cases e
    exact ⟨vs, ha, h'⟩

theorem obj_text {v : Bytes} {ds : List (Bytes × Doc)} (h : Denotes v (.obj ds)) :
    ∃ kvs, IsObject v kvs ∧ Aligned (fun m n => m.1 = n.1 ∧ Denotes m.2 n.2) kvs ds := by
  rcases isCont_cases (value_of_denotes h) (.inl (denotes_kind h)) with ⟨kvs, ho⟩ | ⟨vs, ha⟩
  · obtain ⟨ds', e, h'⟩ := denotes_members h ho
    cases e
    exact ⟨kvs, ho, h'⟩
  · have := (denotes_kind h).symm.trans (IsArray.kindOf ha); cases this

/-! ### Texts that are equal up to the order of members -/

/-- The values of the members with the name `s`. -/
def named (name : Bytes → Bytes) (s : Bytes) (kvs : List (Bytes × Bytes)) : List Bytes :=
  (kvs.filter fun m => name m.1 = s).map Prod.snd

theorem sameText_kind {name : Bytes → Bytes} {v v' : Bytes} (h : SameText name v v') : kindOf v = kindOf v' := by
  obtain ⟨d, d', h1, h2, h3⟩ := h
  rw [denotes_kind h1, denotes_kind h2]
  cases h3 with
  | leaf => cases h1; cases h2; rfl
  | arr => rfl
  | obj => rfl

theorem sameText_value {name : Bytes → Bytes} {v v' : Bytes} (h : SameText name v v') : IsValue v ∧ IsValue v' := by
  obtain ⟨d, d', h1, h2, _⟩ := h
  exact ⟨value_of_denotes h1, value_of_denotes h2⟩

/-- Two ways to get from texts to documents. -/
theorem sameText_lists {name : Bytes → Bytes} {vs vs' : List Bytes} {ps : List (Doc × Doc)} (hp : ∀ p ∈ ps, SameMembers name p.1 p.2)
    (h1 : Aligned Denotes vs (ps.map Prod.fst)) (h2 : Aligned Denotes vs' (ps.map Prod.snd)) : Aligned (SameText name) vs vs' := by
  induction ps generalizing vs vs' with
  | nil => cases h1; cases h2; exact .nil
  | cons p ps ih =>
    cases h1 with
    | cons a b =>
      cases h2 with
      | cons a' b' => exact .cons ⟨_, _, a, a', hp p (by simp)⟩ (ih (fun q hq => hp q (List.mem_cons_of_mem _ hq)) b b')

theorem same_elems {name : Bytes → Bytes} {v v' : Bytes} {vs : List Bytes} (h : SameText name v v') (ha : IsArray v vs) :
    ∃ vs', IsArray v' vs' ∧ Aligned (SameText name) vs vs' := by
  obtain ⟨d, d', h1, h2, h3⟩ := h
  obtain ⟨ds, rfl, hal⟩ := denotes_elems h1 ha
  cases h3 with
  | @arr ps hp =>
    obtain ⟨vs', ha', hal'⟩ := arr_text h2
    exact ⟨vs', ha', sameText_lists hp hal hal'⟩

theorem named_docs {name : Bytes → Bytes} {s : Bytes} {kvs : List (Bytes × Bytes)} {ds : List (Bytes × Doc)}
    (h : Aligned (fun m n => m.1 = n.1 ∧ Denotes m.2 n.2) kvs ds) : Aligned Denotes (named name s kvs) (valuesOf name s ds) :=
  aligned_on (aligned_filter (p := fun m => decide (name m.1 = s)) (q := fun m => decide (name m.1 = s)) h fun a b hab => by rw [hab.1])
    fun _ _ hab => hab.2

theorem same_members {name : Bytes → Bytes} {v v' : Bytes} {kvs : List (Bytes × Bytes)} (h : SameText name v v') (ho : IsObject v kvs) :
    ∃ kvs', IsObject v' kvs' ∧ ∀ s, Aligned (SameText name) (named name s kvs) (named name s kvs') := by
  obtain ⟨d, d', h1, h2, h3⟩ := h
  obtain ⟨ds, rfl, hal⟩ := denotes_members h1 ho
  cases h3 with
  | @obj _ ms' ps hp e1 e2 =>
    obtain ⟨kvs', ho', hal'⟩ := obj_text h2
    refine ⟨kvs', ho', fun s => sameText_lists (hp s) ?_ ?_⟩
    · rw [e1]; exact named_docs hal
    · rw [e2]; exact named_docs hal'

/-! ### The search for exact keys -/

theorem names_matches {E : UInt8 → UInt8 → Prop} (hE : ∀ c d, c ≠ c! '?' → (E c d ↔ c = d)) {k s : Bytes} (h : Names k s) :
    ∀ {s'}, MatchesE E k s' ↔ s' = s := by
  induction h with
  | nil =>
    intro s'
    constructor
    · intro h; cases h; rfl
    · rintro rfl; exact .nil
  | @esc c p s hc h ih =>
    intro s'
    constructor
    · intro h
      cases h with
      | esc h1 h2 => rw [ih.1 h2, (hE _ _ hc).1 h1]
      | plain _ _ h3 => exact absurd rfl h3
    · rintro rfl
      exact .esc ((hE _ _ hc).2 rfl) (ih.2 rfl)
  | @plain c p s h1 h2 h3 h ih =>
    intro s'
    constructor
    · intro h
      cases h with
      | star => exact absurd rfl h1
      | any => exact absurd rfl h2
      | esc => exact absurd rfl h3
      | plain _ _ _ h => rw [ih.1 h]
    · rintro rfl
      exact .plain h1 h2 h3 (ih.2 rfl)

/-- Entries in which looking for the name `s` meets the same values in the same order, up
to the order of members inside of them. -/
inductive SeenSame (name : Bytes → Bytes) (s : Bytes) : List Seen → List Seen → Prop
  | nil : SeenSame name s [] []
  | stop {es es' : List Seen} : SeenSame name s (.stop :: es) (.stop :: es')
  | left {kl v : Bytes} {es es' : List Seen} : StrLit kl → name kl ≠ s → SeenSame name s es es' → SeenSame name s (.member kl v :: es) es'
  | right {kl v : Bytes} {es es' : List Seen} : StrLit kl → name kl ≠ s → SeenSame name s es es' → SeenSame name s es (.member kl v :: es')
  | hit {kl v kl' v' : Bytes} {es es' : List Seen} : StrLit kl → StrLit kl' → name kl = s → name kl' = s → SameText name v v' →
      SeenSame name s es es' → SeenSame name s (.member kl v :: es) (.member kl' v' :: es')

theorem seenSame_append {name : Bytes → Bytes} {s : Bytes} {es es' fs fs' : List Seen} (h : SeenSame name s es es') (h' : SeenSame name s fs fs') :
    SeenSame name s (es ++ fs) (es' ++ fs') := by
  induction h with
  | nil => exact h'
  | stop => exact .stop
  | left h1 h2 _ ih => exact .left h1 h2 ih
  | right h1 h2 _ ih => exact .right h1 h2 ih
  | hit h1 h2 h3 h4 h5 _ ih => exact .hit h1 h2 h3 h4 h5 ih

/-- The members of an object. -/
def entries (kvs : List (Bytes × Bytes)) : List Seen := kvs.map fun m => .member m.1 m.2

theorem seenSame_none {name : Bytes → Bytes} {s : Bytes} {kvs' : List (Bytes × Bytes)} (h' : ∀ m ∈ kvs', StrLit m.1)
    (h : named name s kvs' = []) : SeenSame name s [] (entries kvs') := by
  induction kvs' with
  | nil => exact .nil
  | cons m r ih =>
    have hm : name m.1 ≠ s := by
      intro e
      simp [named, e] at h
    refine .right (h' m (by simp)) hm (ih (fun x hx => h' x (List.mem_cons_of_mem _ hx)) ?_)
    simpa [named, hm] using h

theorem seenSame_first {name : Bytes → Bytes} {s x : Bytes} {r : List Bytes} {kl v : Bytes} {es : List Seen} {kvs' : List (Bytes × Bytes)}
    (hl : StrLit kl) (hn : name kl = s) (h' : ∀ m ∈ kvs', StrLit m.1) (h : named name s kvs' = x :: r) (hx : SameText name v x)
    (hr : ∀ a, (∀ m ∈ a, StrLit m.1) → named name s a = r → SeenSame name s es (entries a)) : SeenSame name s (.member kl v :: es) (entries kvs') := by
  induction kvs' with
  | nil => simp [named] at h
  | cons m a ih =>
    have ha : ∀ x ∈ a, StrLit x.1 := fun x hx => h' x (List.mem_cons_of_mem _ hx)
    by_cases hm : name m.1 = s
    · simp only [named, List.filter_cons, hm, decide_true, if_true, List.map_cons, List.cons.injEq] at h
      obtain ⟨rfl, h⟩ := h
      exact .hit hl (h' m (by simp)) hn hm hx (hr a ha h)
    · exact .right (h' m (by simp)) hm (ih ha (by simpa [named, hm] using h))

theorem seenSame_members {name : Bytes → Bytes} {s : Bytes} : ∀ {kvs kvs' : List (Bytes × Bytes)}, (∀ m ∈ kvs, StrLit m.1) → (∀ m ∈ kvs', StrLit m.1) →
    Aligned (SameText name) (named name s kvs) (named name s kvs') → SeenSame name s (entries kvs) (entries kvs')
  | [], kvs', _, h', h => by
    refine seenSame_none h' ?_
    generalize named name s kvs' = l at h
    cases h
    rfl
  | m :: r, kvs', h1, h', h => by
    have hr : ∀ x ∈ r, StrLit x.1 := fun x hx => h1 x (List.mem_cons_of_mem _ hx)
    by_cases hm : name m.1 = s
    · have e : named name s (m :: r) = m.2 :: named name s r := by simp [named, hm]
      rw [e] at h
      generalize hl : named name s kvs' = l at h
      cases h with
      | cons a b =>
        exact seenSame_first (h1 m (by simp)) hm h' hl a fun x hx hxr => seenSame_members hr hx (hxr ▸ b)
    · have e : named name s (m :: r) = named name s r := by simp [named, hm]
      rw [e] at h
      exact .left (h1 m (by simp)) hm (seenSame_members hr h' h)

/-- Reading on through values that are equal up to the order of members. -/
theorem met_same {name : Bytes → Bytes} {s : Bytes} {vs : List Bytes} {es : List Seen} (h : Spec.Met vs es) :
    ∀ {vs'}, Aligned (SameText name) vs vs' → ∃ es', Spec.Met vs' es' ∧ SeenSame name s es es' := by
  induction h with
  | nil => intro vs' h; cases h; exact ⟨[], .nil, .nil⟩
  | str hk =>
    intro vs' h
    cases h with
    | cons a b => exact ⟨_, .str (by rw [← sameText_kind a, hk]), .stop⟩
  | scalar h1 h2 h3 _ ih =>
    intro vs' h
    cases h with
    | cons a b =>
      obtain ⟨es', e1, e2⟩ := ih b
      rw [sameText_kind a] at h1 h2 h3
      exact ⟨es', .scalar h1 h2 h3 e1, e2⟩
  | obj ho =>
    intro vs' h
    cases h with
    | cons a b =>
      obtain ⟨kvs', ho', hal⟩ := same_members a ho
      exact ⟨_, .obj ho', seenSame_append (seenSame_members (fun m hm => (IsObject.mem_value ho m hm).1)
        (fun m hm => (IsObject.mem_value ho' m hm).1) (hal s)) .stop⟩
  | arr ha _ ih =>
    intro vs' h
    cases h with
    | cons a b =>
      obtain ⟨ws', ha', hal⟩ := same_elems a ha
      obtain ⟨es', e1, e2⟩ := ih (aligned_append hal b)
      exact ⟨es', .arr ha' e1, e2⟩

/-- Outcomes that are equal up to the order of members. -/
inductive SameOutcome (name : Bytes → Bytes) : Outcome → Outcome → Prop
  | found {r r' : Bytes} : SameText name r r' → SameOutcome name (.found r) (.found r')
  | lost : SameOutcome name .lost .lost
  | miss : SameOutcome name .miss .miss

/-- The component `k` hits the key literals with the name `s`. -/
def HitsName (Hit : Bytes → Bytes → Prop) (name : Bytes → Bytes) (k s : Bytes) : Prop := ∀ kl, StrLit kl → (Hit k kl ↔ name kl = s)

/-- A search goes on to the next entry that is hit. -/
theorem walk_hit {Hit : Bytes → Bytes → Prop} {name : Bytes → Bytes} {k s kl v : Bytes} {ks : List Bytes} {es es' : List Seen}
    (hk : HitsName Hit name k s) (he : SeenSame name s (.member kl v :: es) es') (hit : Hit k kl) (hl : StrLit kl) {Q : Outcome → Prop}
    (h : ∀ kl' v' fs', Hit k kl' → SameText name v v' → SeenSame name s es fs' → ∃ o, Walk Hit k ks (.member kl' v' :: fs') o ∧ Q o) :
    ∃ o, Walk Hit k ks es' o ∧ Q o := by
  generalize hes : Seen.member kl v :: es = fs at he
  induction he with
  | nil => cases hes
  | stop => cases hes
  | left h1 h2 =>
    cases hes
    exact absurd ((hk kl hl).1 hit) h2
  | right h1 h2 _ ih =>
    obtain ⟨o, h3, h4⟩ := ih hes
    exact ⟨o, .skip (fun hh => h2 ((hk _ h1).1 hh)) h3, h4⟩
  | hit h1 h2 h3 h4 h5 h6 =>
    cases hes
    exact h _ _ _ ((hk _ h2).2 h4) h5 h6

theorem seenSame_skip {name : Bytes → Bytes} {s kl v : Bytes} {es es' : List Seen} (h : SeenSame name s (.member kl v :: es) es')
    (hn : name kl ≠ s) : SeenSame name s es es' := by
  generalize hes : Seen.member kl v :: es = fs at h
  induction h with
  | nil => cases hes
  | stop => cases hes
  | left _ _ h => cases hes; exact h
  | right h1 h2 _ ih => exact .right h1 h2 (ih hes)
  | hit h1 h2 h3 => cases hes; exact absurd h3 hn

theorem walk_end {Hit : Bytes → Bytes → Prop} {name : Bytes → Bytes} {k s : Bytes} {ks : List Bytes} {es es' : List Seen}
    (hk : HitsName Hit name k s) (he : SeenSame name s es es') (h : es = [] ∨ ∃ r, es = .stop :: r) : Walk Hit k ks es' .miss := by
  induction he with
  | nil => exact .nil
  | stop => exact .stop
  | left => rcases h with h | ⟨r, h⟩ <;> cases h
  | right h1 h2 _ ih => exact .skip (fun hh => h2 ((hk _ h1).1 hh)) (ih h)
  | hit => rcases h with h | ⟨r, h⟩ <;> cases h

theorem seenSame_lit {name : Bytes → Bytes} {s kl v : Bytes} {es es' : List Seen} (h : SeenSame name s (.member kl v :: es) es') : StrLit kl := by
  generalize hes : Seen.member kl v :: es = fs at h
  induction h with
  | nil => cases hes
  | stop => cases hes
  | left h => cases hes; exact h
  | right _ _ _ ih => exact ih hes
  | hit h => cases hes; exact h

mutual
/-- Looking for exact keys has the same outcome in texts that are equal up to the order of
members. -/
theorem find_same {Hit : Bytes → Bytes → Prop} {name : Bytes → Bytes} {v v' : Bytes} {ks : List Bytes} {o : Outcome} (h : Find Hit v ks o)
    (hk : ∀ k ∈ ks, ∃ s, HitsName Hit name k s) (hs : SameText name v v') : ∃ o', Find Hit v' ks o' ∧ SameOutcome name o o' := by
  match h with
  | .scalar h1 h2 =>
    rw [sameText_kind hs] at h1 h2
    exact ⟨_, .scalar h1 h2, .miss⟩
  | .obj ho hw =>
    obtain ⟨kvs', ho', hal⟩ := same_members hs ho
    obtain ⟨s, hsk⟩ := hk _ (List.mem_cons_self)
    obtain ⟨o', h1, h2⟩ := walk_same hw hk hsk (seenSame_members (fun m hm => (IsObject.mem_value ho m hm).1)
        (fun m hm => (IsObject.mem_value ho' m hm).1) (hal s))
    exact ⟨o', .obj ho' h1, h2⟩
  | .beyond ha hn =>
    obtain ⟨vs', ha', hal⟩ := same_elems hs ha
    refine ⟨_, .beyond ha' fun n hi hlt => ?_, .miss⟩
    rcases aligned_at hal n with ⟨_, h2⟩ | ⟨a, b, h1, _⟩
    · exact h2
    · rw [hn n hi hlt] at h1; cases h1
  | .last (n := n) ha hi hn he =>
    obtain ⟨vs', ha', hal⟩ := same_elems hs ha
    rcases aligned_at hal n with ⟨h1, _⟩ | ⟨a, b, h1, h2, h3⟩
    · rw [he] at h1; cases h1
    · rw [he] at h1
      cases h1
      exact ⟨_, .last ha' hi hn h2, .found h3⟩
  | .more (n := n) ha hi hn he hf =>
    obtain ⟨vs', ha', hal⟩ := same_elems hs ha
    rcases aligned_at hal n with ⟨h1, _⟩ | ⟨a, b, h1, h2, h3⟩
    · rw [he] at h1; cases h1
    · rw [he] at h1
      cases h1
      obtain ⟨o', g1, g2⟩ := find_same hf (fun k hm => hk k (List.mem_cons_of_mem _ hm)) h3
      cases g2 with
      | found g => exact ⟨_, .more ha' hi hn h2 g1, .found g⟩
  | .none (n := n) ha hi hn he hf hne =>
    obtain ⟨vs', ha', hal⟩ := same_elems hs ha
    rcases aligned_at hal n with ⟨h1, _⟩ | ⟨a, b, h1, h2, h3⟩
    · rw [he] at h1; cases h1
    · rw [he] at h1
      cases h1
      obtain ⟨o', g1, g2⟩ := find_same hf (fun k hm => hk k (List.mem_cons_of_mem _ hm)) h3
      refine ⟨_, .none ha' hi hn h2 g1 ?_, .lost⟩
      rintro r rfl
      cases g2 with
      | found => exact hne _ rfl
theorem walk_same {Hit : Bytes → Bytes → Prop} {name : Bytes → Bytes} {k s : Bytes} {ks : List Bytes} {es es' : List Seen} {o : Outcome}
    (h : Walk Hit k ks es o) (hk : ∀ k' ∈ k :: ks, ∃ s, HitsName Hit name k' s) (hsk : HitsName Hit name k s) (he : SeenSame name s es es') :
    ∃ o', Walk Hit k ks es' o' ∧ SameOutcome name o o' := by
  match h with
  | .nil => exact ⟨_, walk_end hsk he (.inl rfl), .miss⟩
  | .stop => exact ⟨_, walk_end hsk he (.inr ⟨_, rfl⟩), .miss⟩
  | .skip hn hw =>
    have hl := seenSame_lit he
    exact walk_same hw hk hsk (seenSame_skip he fun e => hn ((hsk _ hl).2 e))
  | .last hit =>
    exact walk_hit hsk he hit (seenSame_lit he) fun kl' v' fs' h1 h2 h3 => ⟨_, .last h1, .found h2⟩
  | .scalar hit hne h1 h2 =>
    refine walk_hit hsk he hit (seenSame_lit he) fun kl' v' fs' g1 g2 g3 => ⟨_, .scalar g1 hne ?_ ?_, .lost⟩
    · rwa [← sameText_kind g2]
    · rwa [← sameText_kind g2]
  | .into hit hc hf hne =>
    have ih := fun v' hs => find_same (v' := v') hf (fun k hm => hk k (List.mem_cons_of_mem _ hm)) hs
    refine walk_hit hsk he hit (seenSame_lit he) fun kl' v' fs' g1 g2 g3 => ?_
    obtain ⟨o', f1, f2⟩ := ih v' g2
    refine ⟨o', .into g1 (by rwa [← sameText_kind g2]) f1 ?_, f2⟩
    rintro rfl
    cases f2
    exact hne rfl
  | .again hit hc hf hm hw =>
    have ih := fun v' hs => find_same (v' := v') hf (fun k hm => hk k (List.mem_cons_of_mem _ hm)) hs
    have ihw := fun es' he => walk_same (es' := es') hw hk hsk he
    refine walk_hit hsk he hit (seenSame_lit he) fun kl' v' fs' g1 g2 g3 => ?_
    obtain ⟨o', f1, f2⟩ := ih v' g2
    cases f2
    obtain ⟨ms, m1, m2⟩ := met_same (s := s) hm (.cons g2 .nil)
    obtain ⟨o', w1, w2⟩ := ihw _ (seenSame_append m2 g3)
    exact ⟨o', .again g1 (by rwa [← sameText_kind g2]) f1 m1 w1, w2⟩
end

end Gjson
