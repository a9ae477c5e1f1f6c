import Verif.Lemmas.Place
/-
What a dot does, for any rest of the path.
-/
namespace Gjson
open Spec

/-! ### The first component of a path -/

theorem pNext_call {c : UInt8} {r : Bytes} (h : c = c! '@' ∨ c = c! '{' ∨ c = c! '[') : (pNext (c :: r)).comp ≠ [] := by
  intro he
  have hok := pNext_ok (c :: r)
  by_cases hs : (pNext (c :: r)).sep = 0
  · have plain : ∀ m, pathNext (c :: r) = pathNextPlain (c :: r) m → False := by
      intro m hm
      rw [pathNext_eq] at hm
      unfold pathNextPlain at hm
      obtain ⟨⟨i, sep, esc, pat, marg⟩, h1, h2⟩ := bind_eq_ok.1 hm.symm
      simp only at h2
      split at h2
      · simp only [ok_bind] at h2
        obtain ⟨rest, h5, h6⟩ := bind_eq_ok.1 h2
        rw [← Except.ok.inj h6] at he
        cases he
      · rename_i hne
        split at h2
        · cases h2
        · obtain ⟨comp, h3, h4⟩ := bind_eq_ok.1 h2
          obtain ⟨rest, h5, h6⟩ := bind_eq_ok.1 h4
          rw [← Except.ok.inj h6] at hs
          exact hne hs
    by_cases ha : c = c! '@'
    · exact plain true (by rw [pathNext, if_pos ha])
    · have e : pathNext (c :: r) = pathNextMultipath (c :: r) := by
        rw [pathNext, if_neg ha, if_neg (by grind), if_pos (by grind)]
      obtain ⟨b, q, i, g1, g2, g3⟩ := scanSquash_total (At.zero (c :: r))
      rw [pathNext_eq] at e
      unfold pathNextMultipath at e
      rw [g1] at e
      simp only [ok_bind] at e
      have hle := g3.1
      have hcomp : slice (c :: r) 0 i = .ok ((c :: r).take i) := by
        unfold slice sub
        rw [if_pos (by omega)]; simp
      have hne : (c :: r).take i ≠ [] := by simp; omega
      rw [hcomp] at e
      simp only [ok_bind] at e
      split at e
      · obtain ⟨x, _, h2⟩ := bind_eq_ok.1 e.symm
        rw [← Except.ok.inj h2] at he
        exact hne he
      · obtain ⟨d, _, h2⟩ := bind_eq_ok.1 e.symm
        split at h2
        · obtain ⟨x, _, h2⟩ := bind_eq_ok.1 h2
          rw [← Except.ok.inj h2] at he
          exact hne he
        · obtain ⟨x, _, h2⟩ := bind_eq_ok.1 h2
          rw [← Except.ok.inj h2] at he
          exact hne he
  · obtain ⟨h1, h2⟩ := hok.sep hs
    rw [he, List.nil_append] at h2
    have := (List.cons.inj h2).1
    unfold IsSep at h1
    grind

/-- Paths that begin with a modifier or a multipath. -/
def Calls (path : Bytes) : Prop := (pNext path).isModifier = true ∨ (pNext path).isMultipath = true

theorem calls_of {c : UInt8} {r : Bytes} (h : c = c! '@' ∨ c = c! '{' ∨ c = c! '[') : Calls (c :: r) :=
  callsUp_of ⟨c, r, rfl, h⟩ (pNext_call h)

theorem key_next {k : Bytes} (ho : OrdComp k) (rest : Bytes) :
    ∃ e p, CompBody k e p ∧ pNext (k ++ c! '.' :: rest) = ⟨k, e, p, c! '.', 0, rest⟩ := by
  obtain ⟨⟨e, p, hc⟩, hf, _⟩ := ho
  exact ⟨e, p, hc, pNext_comp hc hf ⟨.inl rfl, rfl, rfl⟩⟩

theorem key_match {k : Bytes} (ho : OrdComp k) (rest s : Bytes) :
    pKeyMatch s (pNext (k ++ c! '.' :: rest)) = true ↔ MatchesE CodeEsc k s := by
  obtain ⟨e, p, hc, h⟩ := key_next ho rest
  rw [h]
  exact matches_code hc _ _ _ _

theorem key_dives {k : Bytes} (ho : OrdComp k) (rest : Bytes) :
    (pNext (k ++ c! '.' :: rest)).dives = true ↔ ¬ Calls rest := by
  obtain ⟨e, p, hc, h⟩ := key_next ho rest
  rw [h]
  unfold Path.dives Calls
  simp

theorem key_extra {k : Bytes} (ho : OrdComp k) (rest : Bytes) : (pNext (k ++ c! '.' :: rest)).extra = rest := by
  obtain ⟨e, p, hc, h⟩ := key_next ho rest
  rw [h]

theorem key_looksUp {k : Bytes} (ho : OrdComp k) (rest : Bytes) : LooksUp (k ++ c! '.' :: rest) := by
  obtain ⟨c, r, rfl⟩ := List.exists_cons_of_ne_nil ho.2.2
  have hf := ho.2.1
  unfold PlainFirst at hf
  refine looksUp_of (fun d hd => ?_) ?_
  · simp at hd; subst hd; exact ⟨hf.1, hf.2.2⟩
  · rintro ⟨t, ht⟩
    simp only [List.cons_append, List.cons.injEq] at ht
    obtain ⟨⟨e, p, hc⟩, _, _⟩ := ho
    have : Special c → c = c! '\\' ∨ c = c! '*' ∨ c = c! '?' := by
      intro hs
      cases hc with
      | plain h _ => exact absurd hs h
      | wild h _ => exact .inr h
      | esc _ => exact .inl rfl
    have := this (by rw [← ht.1]; decide)
    rw [← ht.1] at this
    revert this; decide

/-- The rest of the path, asked of a value found by the component before the dot. -/
theorem finish_key {k : Bytes} (ho : OrdComp k) (rest : Bytes) {u : Value} (hu : OneText u) :
    SameRes (finish (u, pNext (k ++ c! '.' :: rest))) (get u.json rest) := by
  obtain ⟨e, p, hc, h⟩ := key_next ho rest
  rw [h]
  unfold finish Path.more
  simp only
  rw [if_neg (by simp)]
  exact getIn_same hu rest

/-! ### The first member with the key -/

section
variable {d : Bytes → Res (Value × Path)} {L : Nat} {p : Path}

theorem meets_none {s : Bytes} {es : List Seen} (h : Meets d L p s es)
    (hn : ∀ kl v, .member kl v ∈ es → ∀ s, KeyIs kl s → pKeyMatch s p = false) : gObjLoop d L p s = .ok (Value.default, p) := by
  induction h with
  | nil h => exact h
  | stop h => exact h
  | member h1 h2 h3 h4 h5 ih =>
    obtain ⟨s, hs, _⟩ := keyIs_total h1.2.1
    obtain ⟨i, e⟩ := gObjLoop_member d L p h1 h2 h3.follow hs
    rw [h4, e, hn _ _ List.mem_cons_self s hs, if_neg (by simp)]
    exact ih fun kl v hm => hn kl v (List.mem_cons_of_mem _ hm)

theorem meets_first {kl x k : Bytes} {es : List Seen} (hk : KeyIs kl k) (hm : pKeyMatch k p = true) :
    ∀ {before : List (Bytes × Bytes)} {s : Bytes},
    Meets d L p s (before.map (fun m => .member m.1 m.2) ++ .member kl x :: es) →
    (∀ m ∈ before, ∀ s, KeyIs m.1 s → pKeyMatch s p = false) →
    IsValue x ∧ ∃ i q, Stop q ∧ Meets d L p q es ∧ gObjLoop d L p s =
      if p.dives ∧ IsCont x then do
        let (res, p') ← d (x ++ q)
        if res.exists then .ok (res, p') else gObjLoop d L p (x ++ q)
      else .ok (leafVal (some i) x, p) := by
  intro before
  induction before with
  | nil =>
    intro s h _
    rw [List.map_nil, List.nil_append] at h
    cases h with
    | member h1 h2 h3 h4 h5 =>
      obtain ⟨i, e⟩ := gObjLoop_member d L p h1 h2 h3.follow hk
      refine ⟨h2, i, _, h3.ws h1.2.2.2.2, h5.congr (gObjLoop_ws _ _ _ h1.2.2.2.2), ?_⟩
      rw [h4, e, if_pos hm]
  | cons m before ih =>
    intro s h hb
    rw [List.map_cons, List.cons_append] at h
    generalize he : Seen.member m.1 m.2 = e0 at h
    cases h with
    | stop => cases he
    | member h1 h2 h3 h4 h5 =>
      simp only [Seen.member.injEq] at he
      obtain ⟨s', hs, _⟩ := keyIs_total h1.2.1
      obtain ⟨i, e⟩ := gObjLoop_member d L p h1 h2 h3.follow hs
      rw [h4, e, hb m (by simp) s' (he.1 ▸ hs), if_neg (by simp)]
      exact ih h5 fun y hy => hb y (List.mem_cons_of_mem _ hy)
end

theorem object_meets {v q : Bytes} {kvs : List (Bytes × Bytes)} (hobj : IsObject v kvs) (L : Nat) (p : Path) :
    ∃ s, gCont get L p (v ++ q) = gObjLoop (diveOf L p) L p s ∧ Meets (diveOf L p) L p s (kvs.map fun m => .member m.1 m.2) := by
  obtain ⟨ms, a1, a2, a3, _, a5⟩ := gCont_obj get L p (q := q) hobj
  have he := ent_members (d := diveOf L p) (L := L) (p := p) (q := q) (es := []) a1 a2 (.nil (gObjLoop_close _ _ _ _))
  rw [a3, List.append_nil] at he
  exact ⟨_, a5, he⟩

/-- Looking up in this container finds something, wherever it stands. -/
def Sure (path v : Bytes) : Prop := ∀ L q, Stop q → ∀ y, gCont get L (pNext path) (v ++ q) = .ok y → y.1.exists = true

/-- The search for the rest of the path does not come back. -/
def Settles (path v : Bytes) : Prop := ¬ IsCont v ∨ Calls path ∨ LooksUp path ∧ Sure path v

theorem sameRes_error {a b : Res Value} {e : Fault} (h : SameRes a b) (ha : a = .error e) : b = .error e := by
  subst ha; cases h; rfl

theorem get_cont {path v : Bytes} (h : LooksUp path) (hc : IsCont v) :
    get v path = (gCont get v.length (pNext path) v >>= finish) := by
  have e := gStart_cont get v.length (pNext path) (q := []) hc
  rw [List.append_nil] at e
  rw [get_looksUp h, e]

/-- One step into an object. -/
theorem key_step {v k kl x rest : Bytes} {before after : List (Bytes × Bytes)} (ho : OrdComp k)
    (hobj : IsObject v (before ++ (kl, x) :: after)) (hb : ∀ m ∈ before, ∀ s, KeyIs m.1 s → ¬ MatchesE CodeEsc k s)
    (hit : ∃ s, KeyIs kl s ∧ MatchesE CodeEsc k s) (hg : Settles rest x) :
    Sure (k ++ c! '.' :: rest) v ∧ SameRes (get v (k ++ c! '.' :: rest)) (get x rest) := by
  obtain ⟨sk, hk, hm⟩ := hit
  rw [← key_match ho rest] at hm
  have hb' : ∀ m ∈ before, ∀ s, KeyIs m.1 s → pKeyMatch s (pNext (k ++ c! '.' :: rest)) = false := by
    intro m hmem s hs
    have := hb m hmem s hs
    rw [← key_match ho rest] at this
    simpa using this
  have key : ∀ L q, ∃ y, gCont get L (pNext (k ++ c! '.' :: rest)) (v ++ q) = y ∧ (∀ z, y = .ok z → z.1.exists = true) ∧
      SameRes (y >>= finish) (get x rest) := by
    intro L q
    obtain ⟨s, e1, e2⟩ := object_meets (q := q) hobj L (pNext (k ++ c! '.' :: rest))
    rw [List.map_append, List.map_cons] at e2
    obtain ⟨hx, i, q', hq', _, e3⟩ := meets_first hk hm e2 hb'
    refine ⟨_, rfl, ?_⟩
    rw [e1, e3]
    have hleaf : (∀ z, (.ok (leafVal (some i) x, pNext (k ++ c! '.' :: rest)) : Res (Value × Path)) = .ok z → z.1.exists = true) ∧
        SameRes ((.ok (leafVal (some i) x, pNext (k ++ c! '.' :: rest)) : Res (Value × Path)) >>= finish) (get x rest) := by
      constructor
      · intro z hz; cases hz; exact sameAsText_exists (leaf_sameAsText hx _) (isValue_ne_nil hx)
      · rw [ok_bind]
        have := finish_key ho rest (u := leafVal (some i) x) (mkVal_oneText _ _ _)
        rw [leafVal_json] at this
        exact this
    by_cases hcond : (pNext (k ++ c! '.' :: rest)).dives = true ∧ IsCont x
    · rw [if_pos hcond]
      obtain ⟨hl, hs⟩ : LooksUp rest ∧ Sure rest x := by
        rcases hg with h | h | h
        · exact absurd hcond.2 h
        · exact absurd h ((key_dives ho rest).1 hcond.1)
        · exact h
      have ed : diveOf L (pNext (k ++ c! '.' :: rest)) (x ++ q') = gCont get L (pNext rest) (x ++ q') := by
        unfold diveOf
        rw [if_pos hcond.1, key_extra ho]
      rw [ed]
      have hr := gCont_get hl hx hcond.2 hq' L
      cases hy : gCont get L (pNext rest) (x ++ q') with
      | error e => rw [hy] at hr; exact ⟨fun z hz => (by cases hz), hr⟩
      | ok y =>
        have := hs L q' hq' y hy
        rw [hy] at hr
        rw [ok_bind]
        simp only
        rw [if_pos this]
        exact ⟨fun z hz => (by cases hz; exact this), hr⟩
    · rw [if_neg hcond]
      exact hleaf
  constructor
  · intro L q _ y hy
    obtain ⟨z, h1, h2, _⟩ := key L q
    exact h2 y (h1 ▸ hy)
  · obtain ⟨y, h1, _, h3⟩ := key v.length []
    rw [List.append_nil] at h1
    rw [get_cont (key_looksUp ho rest) (IsObject.isCont hobj), h1]
    exact h3

/-- One step into an array. -/
theorem index_step {v k x rest : Bytes} {vs : List Bytes} {n : Nat} (ho : OrdComp k) (harr : IsArray v vs)
    (hi : IndexText k n) (hn : n < 2 ^ 63) (hx : vs[n]? = some x) :
    Sure (k ++ c! '.' :: rest) v ∧ SameRes (get v (k ++ c! '.' :: rest)) (get x rest) := by
  have hxv := (IsArray.mem_value harr _ (List.mem_of_getElem? hx)).1
  have key : ∀ L q, ∃ a, gCont get L (pNext (k ++ c! '.' :: rest)) (v ++ q) = .ok (a, pNext (k ++ c! '.' :: rest)) ∧
      SameAsText a x ∧ OneText a := by
    intro L q
    rw [gCont_arr get L _ harr]
    obtain ⟨a, h1, h2⟩ := aligned_get (array_toks harr q (L - (v ++ q).length)) hx
    refine ⟨a, ?_, h2, (eachToks_prov _ _ _ a (List.mem_of_getElem? h1)).oneText⟩
    obtain ⟨e, p, hc, h⟩ := key_next ho rest
    have hd : (eachToks (L - (v ++ q).length) false (v ++ q)).getD n Value.default = a := by
      rw [List.getD_eq_getElem?_getD, h1]; rfl
    rw [h, array_element ho.2.1 _ _ _ _ hi hn, hd]
  constructor
  · intro L q _ y hy
    obtain ⟨a, h1, h2, _⟩ := key L q
    rw [h1] at hy
    cases hy
    exact sameAsText_exists h2 (isValue_ne_nil hxv)
  · obtain ⟨a, h1, h2, h3⟩ := key v.length []
    rw [List.append_nil] at h1
    rw [get_cont (key_looksUp ho rest) (IsArray.isCont harr), h1, ok_bind]
    have := finish_key ho rest h3
    rw [h2.1] at this
    exact this

/-- A dot path with more behind it. -/
def dotted (ks : List Bytes) (rest : Bytes) : Bytes := ks.foldr (fun k r => k ++ c! '.' :: r) rest

theorem dotted_eq {ks : List Bytes} (hne : ks ≠ []) (rest : Bytes) : dotted ks rest = dotPath ks ++ c! '.' :: rest := by
  induction ks with
  | nil => exact absurd rfl hne
  | cons k ks ih =>
    cases ks with
    | nil => simp [dotted, dotPath]
    | cons k' ks =>
      have := ih (by simp)
      show k ++ c! '.' :: dotted (k' :: ks) rest = _
      rw [this]
      simp [dotPath]

/-- The prefix law. -/
theorem leads_dotted {v t rest : Bytes} {ks : List Bytes} (h : Leads (fun k kl => ∃ s, KeyIs kl s ∧ MatchesE CodeEsc k s) v ks t)
    (ho : OrdComps ks) (hg : Settles rest t) :
    (ks ≠ [] → Sure (dotted ks rest) v) ∧ SameRes (get v (dotted ks rest)) (get t rest) := by
  induction h with
  | here => exact ⟨fun h => absurd rfl h, .refl _⟩
  | @key t kl k x r ks before after hobj hb hit hl ih =>
    obtain ⟨h1, h2⟩ := ih ho.tail hg
    have hset : Settles (dotted ks rest) x := by
      cases ks with
      | nil => cases hl; exact hg
      | cons k' ks => exact .inr (.inr ⟨key_looksUp (ho k' (by simp)) _, h1 (by simp)⟩)
    obtain ⟨h3, h4⟩ := key_step (ho k (by simp)) hobj (fun m hm s hs hh => hb m hm ⟨s, hs, hh⟩) hit hset
    exact ⟨fun _ => h3, h4.trans h2⟩
  | @index t k x r ks vs n harr hi hn hx hl ih =>
    obtain ⟨h1, h2⟩ := ih ho.tail hg
    obtain ⟨h3, h4⟩ := index_step (rest := dotted ks rest) (ho k (by simp)) harr hi hn hx
    exact ⟨fun _ => h3, h4.trans h2⟩

/-! ### When the search settles -/

theorem settles_array {rest t : Bytes} {vs : List Bytes} (harr : IsArray t vs) (hl : LooksUp rest)
    (h : ∀ vals y, Aligned SameAsText vals vs → (∀ v ∈ vals, v.exists = true ∧ v.json = v.slice) →
      gArrVals get (pNext rest) vals = .ok y → y.1.exists = true) : Settles rest t := by
  refine .inr (.inr ⟨hl, ?_⟩)
  intro L q _ y hy
  rw [gCont_arr get L _ harr] at hy
  exact h _ y (array_toks harr q _) (eachToks_exist _ _ _) hy

theorem arrayOf_exists (l : List Value) : (arrayOf l).exists = true := by unfold arrayOf; rw [mkOwned_exists]; rfl

theorem looksUp_hash (r : Bytes) : LooksUp (c! '#' :: r) := by
  refine looksUp_of (fun c hc => ?_) ?_
  · simp at hc; subst hc; decide
  · rintro ⟨t, ht⟩; simp at ht

theorem settles_hash {t r : Bytes} {vs : List Bytes} (harr : IsArray t vs) (hr : ∀ c ∈ r.head?, c = c! '.' ∨ c = c! '|') :
    Settles (c! '#' :: r) t := by
  obtain ⟨sep, rest, ht⟩ : ∃ sep rest, Tail sep rest r := by
    cases r with
    | nil => exact ⟨0, [], rfl, rfl⟩
    | cons c r => exact ⟨c, r, hr c (by simp), rfl, rfl⟩
  refine settles_array harr (looksUp_hash r) fun vals y _ hv h => ?_
  rw [pNext_hashTail ht] at h
  rcases gArrVals_missing (fun v hm => (hv v hm).1) h with h1 | h1
  · exact h1
  · subst h1
    unfold gArrVals at h
    simp only [if_true] at h
    split at h
    · obtain ⟨l, _, h2⟩ := bind_eq_ok.1 h
      have := congrArg (fun x => x.1.exists) (Except.ok.inj h2)
      simp only [arrayOf_exists] at this
      cases this
    · have := congrArg (fun x => x.1.exists) (Except.ok.inj h)
      simp only at this
      rw [mkOwned_exists] at this
      obtain ⟨c, r, e, _⟩ := natDec_head vals.length
      rw [e] at this
      cases this

theorem settles_all {t q lh rh r : Bytes} {op : Option Op} {vs : List Bytes} (harr : IsArray t vs) (hq : QueryText q lh op rh)
    (hr : ∀ c ∈ r.head?, c = c! '.' ∨ c = c! '|') : Settles (queryComp q true ++ r) t := by
  obtain ⟨sep, rest, ht⟩ : ∃ sep rest, Tail sep rest r := by
    cases r with
    | nil => exact ⟨0, [], rfl, rfl⟩
    | cons c r => exact ⟨c, r, hr c (by simp), rfl, rfl⟩
  refine settles_array harr (looksUp_hash _) fun vals y _ _ h => ?_
  rw [pNext_query (queryText_pass hq) (all := true) ht] at h
  obtain ⟨t', e1, e2, e3⟩ := queryComp_cons q true
  rw [gArrVals_all get vals e1 e2 e3] at h
  obtain ⟨l, _, h2⟩ := bind_eq_ok.1 h
  cases h2
  exact arrayOf_exists l

theorem settles_first {t q lh rh r : Bytes} {op : Option Op} {vs : List Bytes} (harr : IsArray t vs) (hq : QueryText q lh op rh)
    (hr : ∀ c ∈ r.head?, c = c! '.' ∨ c = c! '|') {test : Bytes → Bool} (htest : ∀ e ∈ vs, ElemTest lh (opName op) rh e (test e))
    (hm : ∃ e ∈ vs, test e = true) : Settles (queryComp q false ++ r) t := by
  obtain ⟨sep, rest, ht⟩ : ∃ sep rest, Tail sep rest r := by
    cases r with
    | nil => exact ⟨0, [], rfl, rfl⟩
    | cons c r => exact ⟨c, r, hr c (by simp), rfl, rfl⟩
  refine settles_array harr (looksUp_hash _) fun vals y ha hv h => ?_
  rw [pNext_query (queryText_pass hq) (all := false) ht] at h
  obtain ⟨t', e1, e2, e3⟩ := queryComp_cons q false
  have hp := parts_eq hq (p := ⟨queryComp q false, false, false, sep, 0, rest⟩) (all := false) rfl
  rw [gArrVals_first get vals e1 e2 (by rw [e3]; decide), hp] at h
  obtain ⟨w, w1, w2⟩ := find_kept ha htest hv
  rw [w1, ok_bind] at h
  cases h
  obtain ⟨e, he, hte⟩ := hm
  cases hf : vs.find? test with
  | none => rw [List.find?_eq_none] at hf; exact absurd hte (hf e he)
  | some e' =>
    rw [hf] at w2
    exact sameAsText_exists w2 (isValue_ne_nil (IsArray.mem_value harr _ (List.mem_of_find?_eq_some hf)).1)

/-! ### Keys that are not nested -/

section
variable {k v doc rest : Bytes}

theorem alone_found {x : Bytes} {Hit : Bytes → Bytes → Prop} (hv : IsValue v) (hd : Padded v doc) (ho : OrdComp k) (hh : HitOk Hit [k])
    (h : Find Hit v [k] (.found x)) : SameRes (get doc k >>= fun w => w.get rest) (get x rest) := by
  have ho1 : OrdComps [k] := fun x hx => by simp at hx; subst hx; exact ho
  obtain ⟨w, h1, h2⟩ := find_get h hv hd ho1 hh
  replace h1 : get doc k = .ok w := h1
  rw [h1, ok_bind]
  have := getIn_same (Handed.get h1).oneText rest
  rw [h2.1] at this
  exact this

theorem alone_missing {o : Outcome} {Hit : Bytes → Bytes → Prop} (hv : IsValue v) (hd : Padded v doc) (ho : OrdComp k) (hh : HitOk Hit [k])
    (hne : ∀ r, o ≠ .found r) (h : Find Hit v [k] o) : SameRes (get doc k >>= fun w => w.get rest) (get [] rest) := by
  have ho1 : OrdComps [k] := fun x hx => by simp at hx; subst hx; exact ho
  obtain ⟨w, h1, h2⟩ := shows_lost (find_get h hv hd ho1 hh) hne
  replace h1 : get doc k = .ok w := h1
  rw [h1, ok_bind]
  have := getIn_same (Handed.get h1).oneText rest
  rw [h2.json] at this
  exact this

theorem miss_rest (ho : OrdComp k) : SameRes ((.ok (Value.default, pNext (k ++ c! '.' :: rest)) : Res (Value × Path)) >>= finish) (get [] rest) := by
  rw [ok_bind]
  exact finish_key (u := Value.default) ho rest (.inl rfl)

/-- A dot is a second lookup, in the absence of nested keys. -/
theorem unnested_any {Hit : Bytes → Bytes → Prop} (hv : IsValue v) (hd : Padded v doc) (ho : OrdComp k) (hh : HitOk Hit [k])
    (hr : LooksUp rest ∨ Calls rest) (hu : Unnested (Hit k) v) :
    SameRes (get doc (k ++ c! '.' :: rest)) (get doc k >>= fun w => w.get rest) := by
  have hself : Padded v v := ⟨[], [], Ws.nil, Ws.nil, by simp⟩
  have hlk := key_looksUp ho rest
  refine (get_padded_any hlk hv hd hself).trans ?_
  have hhit : ∀ {kl s : Bytes}, KeyIs kl s → (Hit k kl ↔ MatchesE CodeEsc k s) := fun h => hh k (by simp) _ _ h
  have hnomatch : ∀ {kl s : Bytes}, KeyIs kl s → ¬ Hit k kl → pKeyMatch s (pNext (k ++ c! '.' :: rest)) = false := by
    intro kl s hs hn
    rw [hhit hs, ← key_match ho rest] at hn
    simpa using hn
  by_cases hc : IsCont v
  · rcases isCont_cases hv hc with ⟨kvs, hobj⟩ | ⟨vs, harr⟩
    · rw [get_cont hlk hc]
      obtain ⟨s, e1, e2⟩ := object_meets (q := []) hobj v.length (pNext (k ++ c! '.' :: rest))
      rw [List.append_nil] at e1
      by_cases hall : ∀ m ∈ kvs, ¬ Hit k m.1
      · have := meets_none e2 (by
          intro kl x hx s hs
          obtain ⟨m, h1, h2⟩ := List.mem_map.1 hx
          cases h2
          exact hnomatch hs (hall m h1))
        rw [e1, this]
        exact (miss_rest ho).trans (alone_missing hv hd ho hh (by simp) (.obj hobj (walk_nowhere hall))).symm
      · obtain ⟨b, kl, x, a, rfl, hb, hit⟩ : ∃ b kl x a, kvs = b ++ (kl, x) :: a ∧ (∀ m ∈ b, ¬ Hit k m.1) ∧ Hit k kl := by
          clear hobj e2
          induction kvs with
          | nil => simp at hall
          | cons m kvs ih =>
            by_cases hm : Hit k m.1
            · exact ⟨[], m.1, m.2, kvs, rfl, by simp, hm⟩
            · obtain ⟨b, kl, x, a, h1, h2, h3⟩ := ih (fun h => hall (by simpa using ⟨hm, fun a b hab => h (a, b) hab⟩))
              exact ⟨m :: b, kl, x, a, by simp [h1], by simpa using ⟨hm, fun a b hab => h2 (a, b) hab⟩, h3⟩
        refine SameRes.trans ?_ (alone_found hv hd ho hh (.obj hobj (walk_first hb hit))).symm
        obtain ⟨hkl, hx⟩ := IsObject.mem_value hobj (kl, x) (by simp)
        obtain ⟨sk, hsk, _⟩ := keyIs_total hkl
        have hm := (hhit hsk).1 hit
        by_cases hset : Settles rest x
        · have := (key_step ho hobj (fun m hm s hs h => hb m hm ((hhit hs).2 h)) ⟨sk, hsk, hm⟩ hset).2
          rw [get_cont hlk hc] at this
          exact this
        · unfold Settles at hset
          simp only [not_or, Decidable.not_not] at hset
          obtain ⟨hcx, hcalls, hset⟩ := hset
          have hl : LooksUp rest := hr.resolve_right hcalls
          rw [← key_match ho rest] at hm
          rw [List.map_append, List.map_cons] at e2
          obtain ⟨_, i, q', hq', e4, e3⟩ := meets_first hsk hm e2 (fun m hmem s hs => hnomatch hs (hb m hmem))
          have hdv := (key_dives ho rest).2 hcalls
          rw [e1, e3, if_pos ⟨hdv, hcx⟩]
          have ed : diveOf v.length (pNext (k ++ c! '.' :: rest)) (x ++ q') = gCont get v.length (pNext rest) (x ++ q') := by
            unfold diveOf
            rw [if_pos hdv, key_extra ho]
          rw [ed]
          have hg := gCont_get hl hx hcx hq' v.length
          cases hy : gCont get v.length (pNext rest) (x ++ q') with
          | error e => rw [hy] at hg; exact hg
          | ok y =>
            rw [hy] at hg
            rw [ok_bind]
            simp only
            by_cases hex : y.1.exists = true
            · rw [if_pos hex]; exact hg
            · rw [if_neg hex]
              have := (gCont_missing hx hcx hy).resolve_left hex
              subst this
              obtain ⟨h1, h2⟩ := hu v b kl x a .here hobj hit
              obtain ⟨es, m1, _, _⟩ := met_one hx
              have hmeets := met_ent m1 (.cons hx rfl hq' (.nil rfl)) e4
              have hnone := meets_none hmeets (by
                intro kl' x' hx' s hs
                refine hnomatch hs ?_
                rcases List.mem_append.1 hx' with h | h
                · obtain ⟨u, h3, t, kvs', h4, h5, h6⟩ := met_inside m1 kl' x' h
                  simp at h3
                  subst h3
                  exact fun hh => h2 ⟨t, kvs', (kl', x'), h4, h5, h6, hh⟩
                · obtain ⟨y, h3, h4⟩ := List.mem_map.1 h
                  cases h4
                  exact h1 y h3)
              rw [hnone]
              refine (miss_rest ho).trans (SameRes.trans ?_ hg)
              rw [get_looksUp hl]
              exact .refl _
    · by_cases hi : ∃ n x, IndexText k n ∧ n < 2 ^ 63 ∧ vs[n]? = some x
      · obtain ⟨n, x, h1, h2, h3⟩ := hi
        exact (index_step ho harr h1 h2 h3).2.trans (alone_found hv hd ho hh (.last harr h1 h2 h3)).symm
      · have hn : ∀ n, IndexText k n → n < 2 ^ 63 → vs[n]? = none := by
          intro n h1 h2
          cases h : vs[n]? with
          | none => rfl
          | some x => exact absurd ⟨n, x, h1, h2, h⟩ hi
        refine SameRes.trans ?_ (alone_missing hv hd ho hh (by simp) (.beyond harr hn)).symm
        rw [get_cont hlk hc]
        have e := gCont_arr get v.length (pNext (k ++ c! '.' :: rest)) (q := []) harr
        rw [List.append_nil] at e
        obtain ⟨e', p', hc', hnx⟩ := key_next ho rest
        have al := aligned_length (array_toks harr [] (v.length - v.length))
        rw [List.append_nil] at al
        have hb := array_beyond ho.2.1 e' p' (c! '.') rest (vals := eachToks (v.length - v.length) false v) (by
          intro n h1 h2
          have := hn n h1 h2
          rw [List.getElem?_eq_none_iff] at this ⊢
          omega)
        rw [← hnx] at hb
        rw [e, hb]
        exact miss_rest ho
  · have hs := gStart_noCont get v.length (pNext (k ++ c! '.' :: rest)) (noCont_scalar hv hc [])
    rw [List.append_nil] at hs
    rw [get_looksUp hlk, hs]
    unfold IsCont at hc
    rw [not_or] at hc
    exact (miss_rest ho).trans (alone_missing hv hd ho hh (by simp) (.scalar hc.1 hc.2)).symm
end

theorem bind_get_congr {a b : Res Value} (ha : ∀ w, a = .ok w → OneText w) (hb : ∀ w, b = .ok w → OneText w) (h : SameRes a b)
    (rest : Bytes) : SameRes (a >>= fun w => w.get rest) (b >>= fun w => w.get rest) := by
  cases h with
  | error e => exact .error e
  | ok h => exact getIn_congr_same (ha _ rfl) (hb _ rfl) h rest

theorem get_nil_dotted {ks : List Bytes} (ho : OrdComps ks) (rest : Bytes) : SameRes (get [] (dotted ks rest)) (get [] rest) := by
  induction ks with
  | nil => exact .refl _
  | cons k ks ih =>
    show SameRes (get [] (k ++ c! '.' :: dotted ks rest)) _
    have hk := ho k (by simp)
    rw [get_looksUp (key_looksUp hk _)]
    exact (miss_rest (rest := dotted ks rest) hk).trans (ih ho.tail)

/-- What one component finds is part of the document. -/
theorem find_one_inside {Hit : Bytes → Bytes → Prop} {v k x : Bytes} (h : Find Hit v [k] (.found x)) {P : Bytes → Prop}
    (hu : Unnested (Hit k) v) (hp : Unnested P v) : IsValue x ∧ Unnested P x := by
  cases h with
  | obj hobj hw =>
    obtain ⟨b, kl, x', a, h1, _, _, h4⟩ := unnested_walk (before := []) hw hobj (by simp) hu
    rcases h4 with ⟨_, rfl⟩ | h4
    · exact ⟨(IsObject.mem_value h1 (kl, x') (by simp)).2, hp.member h1 (m := (kl, x')) (by simp)⟩
    · exact absurd rfl (find_ne_nil h4)
  | last ha hi hn he => exact ⟨(IsArray.mem_value ha _ (List.mem_of_getElem? he)).1, hp.elem ha (List.mem_of_getElem? he)⟩
  | more _ _ _ _ h => exact absurd rfl (find_ne_nil h)

/-- After keys that are not nested, a dot is a pipe. -/
theorem unnested_dotted {Hit : Bytes → Bytes → Prop} {ks : List Bytes} (hne : ks ≠ []) (hh : HitOk Hit ks) (ho : OrdComps ks)
    {rest : Bytes} (hr : LooksUp rest ∨ Calls rest) : ∀ {v doc : Bytes}, IsValue v → Padded v doc → (∀ k ∈ ks, Unnested (Hit k) v) →
    SameRes (get doc (dotted ks rest)) (get doc (dotPath ks) >>= fun w => w.get rest) := by
  induction ks with
  | nil => exact absurd rfl hne
  | cons k ks ih =>
    intro v doc hv hd hu
    have hk := ho k (by simp)
    have hh1 : HitOk Hit [k] := fun x hx => by simp at hx; subst hx; exact hh x (by simp)
    have hrest : LooksUp (dotted ks rest) ∨ Calls (dotted ks rest) := by
      cases ks with
      | nil => exact hr
      | cons k' ks => exact .inl (key_looksUp (ho k' (by simp)) _)
    have h1 : SameRes (get doc (dotted (k :: ks) rest)) _ := unnested_any (rest := dotted ks rest) hv hd hk hh1 hrest (hu k (by simp))
    by_cases hks : ks = []
    · subst hks; exact h1
    refine h1.trans ?_
    have h2 := unnested_dot hv hd ho hks hh (hu k (by simp))
    have hot : ∀ {d p : Bytes} w, get d p = .ok w → OneText w := fun w h => (Handed.get h).oneText
    obtain ⟨o, hf⟩ := find_total Hit (ks := [k]) (by simp) hv
    cases o with
    | found x =>
      obtain ⟨hx, _⟩ := find_one_inside hf (hu k (by simp)) (hu k (by simp))
      refine (alone_found hv hd hk hh1 hf).trans ?_
      refine (ih hks hh.tail ho.tail hx ⟨[], [], Ws.nil, Ws.nil, by simp⟩
        (fun k' hk' => (find_one_inside hf (hu k (by simp)) (hu k' (List.mem_cons_of_mem _ hk'))).2)).trans ?_
      exact bind_get_congr (fun w => hot w) (fun w => hot w) (h2.trans (alone_found hv hd hk hh1 hf)).symm rest
    | lost | miss =>
      refine (alone_missing hv hd hk hh1 (by simp) hf).trans ((get_nil_dotted ho.tail rest).trans ?_)
      have h3 := h2.trans (alone_missing hv hd hk hh1 (by simp) hf)
      obtain ⟨w, h4, h5⟩ := get_noCont_ord (s := []) ho.tail hks (by intro c hc; simp at hc)
      refine SameRes.trans ?_ (bind_get_congr (fun w => hot w) (fun w => hot w) h3 rest).symm
      rw [h4, ok_bind]
      have := getIn_same (hot w h4) rest
      rw [h5.json] at this
      exact this.symm

end Gjson
