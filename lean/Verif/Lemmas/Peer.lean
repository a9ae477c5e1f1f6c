import Verif.Lemmas.Route
/-
Two texts of the same document: what the rules of `Spec.Means` give for them are again
texts of the same document.
-/
namespace Gjson
open Spec

/-! ### Aligned lists -/

theorem aligned_zip {α β γ : Type} {R : α → γ → Prop} {S : β → γ → Prop} {as : List α} {bs : List β} {cs : List γ}
    (h : Aligned R as cs) : Aligned S bs cs → Aligned (fun a b => ∃ c, R a c ∧ S b c) as bs := by
  induction h generalizing bs with
  | nil => intro h'; cases h'; exact .nil
  | cons h _ ih =>
    intro h'
    cases h' with
    | cons h1 h2 => exact .cons ⟨_, h, h1⟩ (ih h2)

theorem aligned_mem {α β : Type} {R : α → β → Prop} {as : List α} {bs : List β} (h : Aligned R as bs) :
    Aligned (fun a b => a ∈ as ∧ b ∈ bs ∧ R a b) as bs := by
  induction h with
  | nil => exact .nil
  | cons h _ ih =>
    refine .cons ⟨by simp, by simp, h⟩ (ih.imp' fun a b hab => ?_)
    exact ⟨List.mem_cons_of_mem _ hab.1, List.mem_cons_of_mem _ hab.2.1, hab.2.2⟩

theorem aligned_on {α β α' β' : Type} {R : α → β → Prop} {S : α' → β' → Prop} {f : α → α'} {g : β → β'} {as : List α} {bs : List β}
    (h : Aligned R as bs) (hi : ∀ a b, R a b → S (f a) (g b)) : Aligned S (as.map f) (bs.map g) := by
  induction h with
  | nil => exact .nil
  | cons h _ ih => exact .cons (hi _ _ h) ih

theorem aligned_append {α β : Type} {R : α → β → Prop} {as as' : List α} {bs bs' : List β} (h : Aligned R as bs)
    (h' : Aligned R as' bs') : Aligned R (as ++ as') (bs ++ bs') := by
  induction h with
  | nil => exact h'
  | cons h _ ih => exact .cons h ih

theorem aligned_reverse {α β : Type} {R : α → β → Prop} {as : List α} {bs : List β} (h : Aligned R as bs) :
    Aligned R as.reverse bs.reverse := by
  induction h with
  | nil => exact .nil
  | cons h _ ih => rw [List.reverse_cons, List.reverse_cons]; exact aligned_append ih (.cons h .nil)

theorem aligned_len {α β : Type} {R : α → β → Prop} {as : List α} {bs : List β} (h : Aligned R as bs) : as.length = bs.length := by
  induction h with
  | nil => rfl
  | cons _ _ ih => simp [ih]

theorem aligned_left {α β : Type} {R : α → β → Prop} {as : List α} {bs : List β} (h : Aligned R as bs) : ∀ a ∈ as, ∃ b ∈ bs, R a b := by
  induction h with
  | nil => simp
  | @cons a b as bs h _ ih =>
    intro x hx
    rcases List.mem_cons.1 hx with rfl | hx
    · exact ⟨b, by simp, h⟩
    · obtain ⟨y, h1, h2⟩ := ih x hx
      exact ⟨y, List.mem_cons_of_mem _ h1, h2⟩

theorem aligned_right {α β : Type} {R : α → β → Prop} {as : List α} {bs : List β} (h : Aligned R as bs) : ∀ b ∈ bs, ∃ a ∈ as, R a b := by
  induction h with
  | nil => simp
  | @cons a b as bs h _ ih =>
    intro x hx
    rcases List.mem_cons.1 hx with rfl | hx
    · exact ⟨a, by simp, h⟩
    · obtain ⟨y, h1, h2⟩ := ih x hx
      exact ⟨y, List.mem_cons_of_mem _ h1, h2⟩

theorem aligned_at {α β : Type} {R : α → β → Prop} {as : List α} {bs : List β} (h : Aligned R as bs) (n : Nat) :
    (as[n]? = none ∧ bs[n]? = none) ∨ ∃ a b, as[n]? = some a ∧ bs[n]? = some b ∧ R a b := by
  induction h generalizing n with
  | nil => exact .inl ⟨rfl, rfl⟩
  | cons h _ ih =>
    cases n with
    | zero => exact .inr ⟨_, _, rfl, rfl, h⟩
    | succ n => simpa using ih n

theorem aligned_filter {α β : Type} {R : α → β → Prop} {p : α → Bool} {q : β → Bool} {as : List α} {bs : List β} (h : Aligned R as bs)
    (hi : ∀ a b, R a b → p a = q b) : Aligned R (as.filter p) (bs.filter q) := by
  induction h with
  | nil => exact .nil
  | @cons a b as bs h _ ih =>
    have := hi _ _ h
    cases hp : p a with
    | true => rw [List.filter_cons_of_pos hp, List.filter_cons_of_pos (this ▸ hp)]; exact .cons h ih
    | false => rw [List.filter_cons_of_neg (by simp [hp]), List.filter_cons_of_neg (by simp [← this, hp])]; exact ih

theorem aligned_find {α β : Type} {R : α → β → Prop} {p : α → Bool} {q : β → Bool} {as : List α} {bs : List β} (h : Aligned R as bs)
    (hi : ∀ a b, R a b → p a = q b) :
    (as.find? p = none ∧ bs.find? q = none) ∨ ∃ a b, as.find? p = some a ∧ bs.find? q = some b ∧ R a b := by
  induction h with
  | nil => exact .inl ⟨rfl, rfl⟩
  | @cons a b as bs h _ ih =>
    have := hi _ _ h
    cases hp : p a with
    | true => exact .inr ⟨a, b, List.find?_cons_of_pos hp, List.find?_cons_of_pos (this ▸ hp), h⟩
    | false => rw [List.find?_cons_of_neg (by simp [hp]), List.find?_cons_of_neg (by simp [← this, hp])]; exact ih

/-! ### Texts of the same document -/

/-- Two values with the same document. -/
def Peer (v v' : Bytes) : Prop := ∃ d, Denotes v d ∧ Denotes v' d

/-- Two results: nothing, or values with the same document; whitespace may follow
objects and arrays. -/
def PeerVal (x x' : Bytes) : Prop :=
  (x = [] ∧ x' = []) ∨ ∃ v v' w w', x = v ++ w ∧ x' = v' ++ w' ∧ Peer v v' ∧ Ws w ∧ Ws w' ∧ ((w = [] ∧ w' = []) ∨ IsCont v)

/-- Two texts: empty, or with the same document. -/
def PeerText (t t' : Bytes) : Prop := (t = [] ∧ t' = []) ∨ ∃ v v', Padded v t ∧ Padded v' t' ∧ Peer v v'

theorem denotes_kind {v : Bytes} {d : Doc} (h : Denotes v d) : kindOf v = match d with
    | .leaf t => kindOf t
    | .arr _ => .array
    | .obj _ => .object := by
  cases h <;> simp [kindOf]

theorem peer_kind {v v' : Bytes} (h : Peer v v') : kindOf v = kindOf v' := by
  obtain ⟨d, h1, h2⟩ := h
  rw [denotes_kind h1, denotes_kind h2]
  cases d <;> rfl

theorem Peer.left {v v' : Bytes} (h : Peer v v') : IsValue v := by
  obtain ⟨d, h1, h2⟩ := h
  exact value_of_denotes h1

theorem Peer.right {v v' : Bytes} (h : Peer v v') : IsValue v' := by
  obtain ⟨d, h1, h2⟩ := h
  exact value_of_denotes h2

theorem peer_self {v : Bytes} (h : IsValue v) : Peer v v := by
  obtain ⟨d, h⟩ := denotes_of_value h
  exact ⟨d, h, h⟩

theorem peer_cont {v v' : Bytes} (h : Peer v v') : IsCont v ↔ IsCont v' := by
  unfold IsCont
  rw [peer_kind h]

theorem peer_leaf {v v' : Bytes} (h : Peer v v') (hc : ¬ IsCont v) : v = v' := by
  obtain ⟨d, h1, h2⟩ := h
  have k1 := denotes_kind h1
  cases h1 with
  | leaf =>
    have k2 := denotes_kind h2
    cases h2
    rfl
  | arrEmpty => exact absurd (.inr k1) hc
  | arr => exact absurd (.inr k1) hc
  | objEmpty => exact absurd (.inl k1) hc
  | obj => exact absurd (.inl k1) hc

theorem Peer.val {v v' : Bytes} (h : Peer v v') : PeerVal v v' :=
  .inr ⟨v, v', [], [], by simp, by simp, h, ws_nil, ws_nil, .inl ⟨rfl, rfl⟩⟩

theorem Peer.text {v v' : Bytes} (h : Peer v v') : PeerText v v' := .inr ⟨v, v', padded_self v, padded_self v', h⟩

theorem peerVal_nil : PeerVal [] [] := .inl ⟨rfl, rfl⟩

theorem peerVal_text {x x' : Bytes} (h : PeerVal x x') : PeerText x x' := by
  rcases h with h | ⟨v, v', w, w', h1, h2, h3, h4, h5, _⟩
  · exact .inl h
  · exact .inr ⟨v, v', ⟨[], w, ws_nil, h4, by simpa using h1⟩, ⟨[], w', ws_nil, h5, by simpa using h2⟩, h3⟩

theorem peerVal_empty {x x' : Bytes} (h : PeerVal x x') : x = [] ↔ x' = [] := by
  rcases h with ⟨rfl, rfl⟩ | ⟨v, v', w, w', rfl, rfl, h3, _⟩
  · simp
  · have h1 := isValue_ne_nil h3.left
    have h2 := isValue_ne_nil h3.right
    simp [h1, h2]

theorem denotes_elems {v : Bytes} {d : Doc} {vs : List Bytes} (hd : Denotes v d) (h : IsArray v vs) :
    ∃ ds, d = .arr ds ∧ Aligned Denotes vs ds := by
  have hk := IsArray.kindOf h
  cases hd with
  | leaf _ _ h2 => exact absurd hk h2
  | arrEmpty hw =>
    have h' : IsArray _ [] := .inl ⟨_, hw, rfl, rfl⟩
    rw [isArray_fun h, ← isArray_fun h']
    exact ⟨[], rfl, .nil⟩
  | @arr es hne hw hd =>
    have h' : IsArray _ _ := isArray_of_elems (es := es.map Prod.fst) (by simpa using fun a b hx => hw (a, b) hx)
      (by simpa using fun a b hx => value_of_denotes (hd (a, b) hx))
    have e := (isArray_fun h).trans (isArray_fun h').symm
    refine ⟨_, rfl, ?_⟩
    rw [e, List.map_map]
    clear e h' hk h hne hw
    induction es with
    | nil => exact .nil
    | cons x es ih => exact .cons (hd x (by simp)) (ih fun e he => hd e (List.mem_cons_of_mem _ he))
  | objEmpty => simp [kindOf] at hk
  | obj => simp [kindOf] at hk

theorem denotes_members {v : Bytes} {d : Doc} {kvs : List (Bytes × Bytes)} (hd : Denotes v d) (h : IsObject v kvs) :
    ∃ ds, d = .obj ds ∧ Aligned (fun m n => m.1 = n.1 ∧ Denotes m.2 n.2) kvs ds := by
  have hk := IsObject.kindOf h
  cases hd with
  | leaf _ h2 _ => exact absurd hk h2
  | objEmpty hw =>
    have h' : IsObject _ [] := .inl ⟨_, hw, rfl, rfl⟩
    rw [isObject_fun h, ← isObject_fun h']
    exact ⟨[], rfl, .nil⟩
  | @obj es hne hw hd =>
    have h' : IsObject _ _ := isObject_of_members (ms := es.map Prod.fst) (by simpa using fun a b hx => hw (a, b) hx)
      (by simpa using fun a b hx => value_of_denotes (hd (a, b) hx))
    have e := (isObject_fun h).trans (isObject_fun h').symm
    refine ⟨_, rfl, ?_⟩
    rw [e, List.map_map]
    clear e h' hk h hne hw
    induction es with
    | nil => exact .nil
    | cons x es ih => exact .cons ⟨rfl, hd x (by simp)⟩ (ih fun e he => hd e (List.mem_cons_of_mem _ he))
  | arrEmpty => simp [kindOf] at hk
  | arr => simp [kindOf] at hk

theorem peer_elems {v v' : Bytes} {vs : List Bytes} (hv : Peer v v') (h : IsArray v vs) : ∃ vs', IsArray v' vs' ∧ Aligned Peer vs vs' := by
  have hk := IsArray.kindOf h
  obtain ⟨d, h1, h2⟩ := id hv
  obtain ⟨ds, rfl, h3⟩ := denotes_elems h1 h
  rcases isCont_cases hv.right (.inr (peer_kind hv ▸ hk)) with ⟨kvs, ho⟩ | ⟨vs', ha⟩
  · rw [peer_kind hv, IsObject.kindOf ho] at hk; cases hk
  · obtain ⟨ds', e, h4⟩ := denotes_elems h2 ha
    cases e
    exact ⟨vs', ha, aligned_zip h3 h4⟩

/-- Members with the same keys and the same documents. -/
def PeerMem (m m' : Bytes × Bytes) : Prop := m.1 = m'.1 ∧ Peer m.2 m'.2

theorem peer_members {v v' : Bytes} {kvs : List (Bytes × Bytes)} (hv : Peer v v') (h : IsObject v kvs) :
    ∃ kvs', IsObject v' kvs' ∧ Aligned PeerMem kvs kvs' := by
  have hk := IsObject.kindOf h
  obtain ⟨d, h1, h2⟩ := id hv
  obtain ⟨ds, rfl, h3⟩ := denotes_members h1 h
  rcases isCont_cases hv.right (.inl (peer_kind hv ▸ hk)) with ⟨kvs', ho⟩ | ⟨vs', ha⟩
  · obtain ⟨ds', e, h4⟩ := denotes_members h2 ho
    cases e
    exact ⟨kvs', ho, (aligned_zip h3 h4).imp' fun a b ⟨c, p, q⟩ => ⟨p.1.trans q.1.symm, _, p.2, q.2⟩⟩
  · rw [peer_kind hv, IsArray.kindOf ha] at hk; cases hk

theorem denotes_array {rs : List Bytes} {ds : List Doc}
    (h : Aligned (fun r d => ∃ v w, r = v ++ w ∧ Ws w ∧ Denotes v d) rs ds) : Denotes (arrayText rs) (.arr ds) := by
  have key : ∃ es : List (Elem × Doc), es.map (fun e => e.1.text) = rs ∧ es.map Prod.snd = ds ∧ (∀ e ∈ es, e.1.Wf) ∧
      (∀ e ∈ es, Denotes e.1.val e.2) := by
    induction h with
    | nil => exact ⟨[], rfl, rfl, by simp, by simp⟩
    | @cons r d rs ds h _ ih =>
      obtain ⟨es, h1, h2, h3, h4⟩ := ih
      obtain ⟨v, w, e, g1, g2⟩ := h
      refine ⟨(⟨[], v, w⟩, d) :: es, ?_, by rw [List.map_cons, h2], ?_, ?_⟩
      · rw [List.map_cons, h1]; simp [Elem.text, e]
      · intro x hx
        rcases List.mem_cons.1 hx with rfl | hx
        · exact ⟨ws_nil, g1⟩
        · exact h3 x hx
      · intro x hx
        rcases List.mem_cons.1 hx with rfl | hx
        · exact g2
        · exact h4 x hx
  obtain ⟨es, rfl, rfl, h2, h3⟩ := key
  by_cases hne : es = []
  · subst hne
    exact .arrEmpty (w := []) ws_nil
  · have := Denotes.arr hne h2 h3
    rw [commaSep_elems, List.map_map] at this
    exact this

theorem denotes_memText {ms : List Member} {ds : List Doc} (hw : ∀ m ∈ ms, m.Wf) (h : Aligned (fun m d => Denotes m.val d) ms ds) :
    Denotes (c! '{' :: (membersText ms ++ [c! '}'])) (.obj (ms.zip ds |>.map fun x => (x.1.key, x.2))) := by
  have key : ∃ es : List (Member × Doc), es.map Prod.fst = ms ∧ es = ms.zip ds ∧ (∀ e ∈ es, Denotes e.1.val e.2) := by
    clear hw
    induction h with
    | nil => exact ⟨[], rfl, rfl, by simp⟩
    | @cons m d ms ds h _ ih =>
      obtain ⟨es, h1, h2, h3⟩ := ih
      refine ⟨(m, d) :: es, by rw [List.map_cons, h1], by rw [h2]; rfl, ?_⟩
      intro x hx
      rcases List.mem_cons.1 hx with rfl | hx
      · exact h
      · exact h3 x hx
  obtain ⟨es, h1, h2, h3⟩ := key
  rw [← h2]
  subst h1
  by_cases hne : es = []
  · subst hne
    exact .objEmpty (w := []) ws_nil
  · exact .obj hne (fun m hm => hw _ (List.mem_map_of_mem hm)) h3

/-- Members in an object. -/
theorem peer_memText {ms ms' : List Member} (hw : ∀ m ∈ ms, m.Wf) (hw' : ∀ m ∈ ms', m.Wf)
    (h : Aligned (fun m m' => m.key = m'.key ∧ Peer m.val m'.val) ms ms') :
    Peer (c! '{' :: (membersText ms ++ [c! '}'])) (c! '{' :: (membersText ms' ++ [c! '}'])) := by
  have key : ∃ ds, Aligned (fun m d => Denotes m.val d) ms ds ∧ Aligned (fun m d => Denotes m.val d) ms' ds ∧
      (ms.zip ds).map (fun x => (x.1.key, x.2)) = (ms'.zip ds).map fun x => (x.1.key, x.2) := by
    clear hw hw'
    induction h with
    | nil => exact ⟨[], .nil, .nil, rfl⟩
    | cons h _ ih =>
      obtain ⟨ds, h1, h2, h3⟩ := ih
      obtain ⟨e, d, g1, g2⟩ := h
      exact ⟨d :: ds, .cons g1 h1, .cons g2 h2, by simp only [List.zip_cons_cons, List.map_cons, e, h3]⟩
  obtain ⟨ds, h1, h2, h3⟩ := key
  have := denotes_memText hw' h2
  rw [← h3] at this
  exact ⟨_, denotes_memText hw h1, this⟩

/-- Values in an array. -/
theorem peer_array {rs rs' : List Bytes} (h : Aligned PeerVal rs rs') (hne : ∀ r ∈ rs, r ≠ []) : Peer (arrayText rs) (arrayText rs') := by
  have key : ∃ ds, Aligned (fun r d => ∃ v w, r = v ++ w ∧ Ws w ∧ Denotes v d) rs ds ∧
      Aligned (fun r d => ∃ v w, r = v ++ w ∧ Ws w ∧ Denotes v d) rs' ds := by
    induction h with
    | nil => exact ⟨[], .nil, .nil⟩
    | @cons r r' rs rs' h _ ih =>
      obtain ⟨ds, h1, h2⟩ := ih fun x hx => hne x (List.mem_cons_of_mem _ hx)
      rcases h with ⟨h, _⟩ | ⟨v, v', w, w', g1, g2, ⟨d, g3, g4⟩, g5, g6, _⟩
      · exact absurd h (hne r (by simp))
      · exact ⟨d :: ds, .cons ⟨v, w, g1, g5, g3⟩ h1, .cons ⟨v', w', g2, g6, g4⟩ h2⟩
  obtain ⟨ds, h1, h2⟩ := key
  exact ⟨_, denotes_array h1, denotes_array h2⟩

/-- Values in an object. -/
theorem peer_object {kvs kvs' : List (Bytes × Bytes)} (h : Aligned (fun m m' => m.1 = m'.1 ∧ PeerVal m.2 m'.2) kvs kvs')
    (hne : ∀ m ∈ kvs, StrLit m.1 ∧ m.2 ≠ []) : Peer (objectText kvs) (objectText kvs') := by
  have key : ∃ ms ms' : List Member, ms.map Member.text = (kvs.map fun kv => kv.1 ++ c! ':' :: kv.2) ∧
      ms'.map Member.text = (kvs'.map fun kv => kv.1 ++ c! ':' :: kv.2) ∧ (∀ m ∈ ms, m.Wf) ∧ (∀ m ∈ ms', m.Wf) ∧
      Aligned (fun m m' => m.key = m'.key ∧ Peer m.val m'.val) ms ms' := by
    induction h with
    | nil => exact ⟨[], [], rfl, rfl, by simp, by simp, .nil⟩
    | @cons r r' rs rs' h _ ih =>
      obtain ⟨ms, ms', h1, h2, h3, h4, h5⟩ := ih fun x hx => hne x (List.mem_cons_of_mem _ hx)
      obtain ⟨hk, hn⟩ := hne r (by simp)
      obtain ⟨ek, h⟩ := h
      rcases h with ⟨h, _⟩ | ⟨v, v', w, w', g1, g2, g3, g5, g6, _⟩
      · exact absurd h hn
      · refine ⟨⟨[], r.1, [], [], v, w⟩ :: ms, ⟨[], r'.1, [], [], v', w'⟩ :: ms', ?_, ?_, ?_, ?_, .cons ⟨ek, g3⟩ h5⟩
        · rw [List.map_cons, h1]; simp [Member.text, g1]
        · rw [List.map_cons, h2]; simp [Member.text, g2]
        · intro x hx
          rcases List.mem_cons.1 hx with rfl | hx
          · exact ⟨ws_nil, hk, ws_nil, ws_nil, g5⟩
          · exact h3 x hx
        · intro x hx
          rcases List.mem_cons.1 hx with rfl | hx
          · exact ⟨ws_nil, ek ▸ hk, ws_nil, ws_nil, g6⟩
          · exact h4 x hx
  obtain ⟨ms, ms', h1, h2, h3, h4, h5⟩ := key
  have := peer_memText h3 h4 h5
  rw [commaSep_members, commaSep_members, h1, h2] at this
  exact this

/-- What `parse` keeps. -/
theorem peer_kept {out out' : Bytes} (h : PeerText out out') : ∃ x x', Kept out x ∧ Kept out' x' ∧ PeerVal x x' := by
  rcases h with ⟨rfl, rfl⟩ | ⟨v, v', ⟨w1, w2, h1, h2, rfl⟩, ⟨w1', w2', h1', h2', rfl⟩, hv⟩
  · exact ⟨[], [], .blank ws_nil, .blank ws_nil, peerVal_nil⟩
  · by_cases hc : IsCont v
    · refine ⟨v ++ w2, v' ++ w2', .cont h1 ?_, .cont h1' ?_, .inr ⟨v, v', w2, w2', rfl, rfl, hv, h2, h2', .inr hc⟩⟩
      · rw [kindOf_append (isValue_ne_nil hv.left)]
        exact hc
      · rw [kindOf_append (isValue_ne_nil hv.right)]
        exact (peer_cont hv).1 hc
    · have hc' := hc
      unfold IsCont at hc'
      rw [not_or] at hc'
      have e := peer_leaf hv hc
      subst e
      exact ⟨v, v, .scalar hv.left hc'.1 hc'.2 ⟨w1, w2, h1, h2, rfl⟩, .scalar hv.left hc'.1 hc'.2 ⟨w1', w2', h1', h2', rfl⟩, hv.val⟩

/-! ### Queries -/

theorem peerVal_cases {x x' : Bytes} (h : PeerVal x x') : x = x' ∨
    ((kindOf x = .object ∨ kindOf x = .array) ∧ (kindOf x' = .object ∨ kindOf x' = .array)) := by
  rcases h with ⟨rfl, rfl⟩ | ⟨v, v', w, w', rfl, rfl, h1, h2, h3, h4⟩
  · exact .inl rfl
  · by_cases hc : IsCont v
    · refine .inr ⟨?_, ?_⟩
      · rw [kindOf_append (isValue_ne_nil h1.left)]; exact hc
      · rw [kindOf_append (isValue_ne_nil h1.right)]; exact (peer_cont h1).1 hc
    · obtain ⟨rfl, rfl⟩ := h4.resolve_right hc
      rw [peer_leaf h1 hc]
      exact .inl rfl

theorem content_kind {x s : Bytes} (h : Content x s) : kindOf x = .string := by
  obtain ⟨b, _, rfl, _⟩ := h
  simp [kindOf]

theorem truthText_kind {x : Bytes} (h : x ∈ trueTexts ∨ x ∈ falseTexts) : ¬ (kindOf x = .object ∨ kindOf x = .array) := by
  have : ∀ y ∈ trueTexts ++ falseTexts, ¬ (kindOf y = .object ∨ kindOf y = .array) := by decide +kernel
  exact this x (List.mem_append.2 h)

theorem numLit_kind {x : Bytes} (h : NumLit x) : ¬ (kindOf x = .object ∨ kindOf x = .array) := by
  rw [kindOf_num h]
  decide

theorem peer_compared {op : Option Op} {rh x x' : Bytes} {b : Bool} (h : Compared op rh x b) (hx : PeerVal x x') : Compared op rh x' b := by
  rcases peerVal_cases hx with rfl | ⟨hc, hc'⟩
  · exact h
  · have hbool : ∀ b, ¬ (kindOf (boolText b) = .object ∨ kindOf (boolText b) = .array) := by decide
    have hne : x' ≠ [] := by rintro rfl; revert hc'; decide
    have hnx : x ≠ [] := by rintro rfl; revert hc; decide
    have hno : NoScalar x' := .inr (.inr hc')
    cases h with
    | «exists» =>
      have : decide (x ≠ []) = decide (x' ≠ []) := by simp [hne, hnx]
      rw [this]
      exact .exists
    | missing => exact absurd rfl hnx
    | string _ _ h => rw [content_kind h] at hc; exact absurd hc (by decide)
    | number _ _ h => exact absurd hc (numLit_kind h)
    | bool y => exact absurd hc (hbool y)
    | other h1 h2 => exact .other h1 h2 hne hno
    | truth h1 h2 =>
      refine .truth h1 ?_
      cases h2 with
      | yes h => exact absurd hc (truthText_kind (.inl h))
      | no h => exact absurd hc (truthText_kind (.inr h))
      | num _ _ h =>
        refine .num (fun h => truthText_kind (.inl h) hc') (fun h => truthText_kind (.inr h) hc') ?_
        cases h with
        | num h => exact absurd hc (numLit_kind h)
        | str h => rw [content_kind h] at hc; exact absurd hc (by decide)
        | bool y => exact absurd hc (hbool y)
        | other => exact .other hno


theorem peer_test {q lh rh : Bytes} {op : Option Op} (hq : QueryText q lh op rh) (hr : Right rh) {v v' : Bytes} (hv : Peer v v')
    (ih : lh ≠ [] → ∃ r r', Means v lh r ∧ Means v' lh r' ∧ PeerVal r r') : ∃ b, Test lh op rh v b ∧ Test lh op rh v' b := by
  have sized : ∀ {x x'}, PeerVal x x' → ∃ n, SizedVal n x := by
    intro x x' h
    rcases h with ⟨rfl, _⟩ | ⟨u, u', w, w', rfl, _, ⟨d, h1, _⟩, h2, h3, h4⟩
    · exact ⟨0, sized_nil 0⟩
    · exact ⟨d.height, .inr ⟨u, w, rfl, ⟨d, h1, Nat.le_refl _⟩, h2, h4.imp (·.1) id⟩⟩
  by_cases hn : lh = []
  · subst hn
    obtain ⟨n, hs⟩ := sized hv.val
    obtain ⟨b, hb⟩ := compared_total hq hr hs
    exact ⟨b, .self hb, .self (peer_compared hb hv.val)⟩
  · obtain ⟨r, r', h1, h2, h3⟩ := ih hn
    obtain ⟨n, hs⟩ := sized h3
    obtain ⟨b, hb⟩ := compared_total hq hr hs
    exact ⟨b, .path hn h1 hb, .path hn h2 (peer_compared hb h3)⟩

theorem means_det {doc path r r' : Bytes} (h : Means doc path r) (h' : Means doc path r') : r = r' := by
  obtain ⟨w, h1, h2⟩ := means_ok h
  obtain ⟨w', h1', h2'⟩ := means_ok h'
  rw [h1] at h1'
  cases h1'
  exact h2.1.symm.trans h2'.1

theorem parse_whole {v : Bytes} (hv : IsValue v) : ∃ w, parse v = .ok w ∧ w.json = v ∧ w.exists = true := by
  have hj : (pParse 0 v).json = v := by
    by_cases hk : kindOf v = .object ∨ kindOf v = .array
    · have := (pParse_cont (r := []) hv hk 0)
      simp only [List.append_nil] at this
      rw [this.1, mkVal_json]
    · rw [not_or] at hk
      have := pParse_scalar hv (Follow.ws' ws_nil) hk
      simp only [List.append_nil] at this
      rw [this, leafVal_json]
  refine ⟨_, parse_eq _, hj, ?_⟩
  rw [exists_json, hj]
  exact isValue_ne_nil hv

theorem test_det {lh rh v : Bytes} {op : Option Op} {b b' : Bool} (hv : IsValue v) (h : Test lh op rh v b) (h' : Test lh op rh v b') : b = b' := by
  have hp : ∃ w, parse v = .ok w ∧ w.json = v ∧ w.exists = true := parse_whole hv
  obtain ⟨w, h1, h2⟩ := test_ok h hp
  obtain ⟨w', h1', h2'⟩ := test_ok h' hp
  rw [h1] at h1'
  cases h1'
  rw [h2] at h2'
  exact Except.ok.inj h2'

/-! ### Modifiers -/

theorem peerText_json {t t' : Bytes} (h : PeerText t t') : JsonText t ↔ JsonText t' := by
  rcases h with ⟨rfl, rfl⟩ | ⟨v, v', ⟨w1, w2, h1, h2, e⟩, ⟨w1', w2', h1', h2', e'⟩, hv⟩
  · rfl
  · exact ⟨fun _ => ⟨w1', v', w2', e', h1', h2', hv.right⟩, fun _ => ⟨w1, v, w2, e, h1, h2, hv.left⟩⟩

theorem peer_call {n a doc doc' : Bytes} (hn : n ∉ [b!"pretty", b!"flatten", b!"join"]) (hd : PeerText doc doc') :
    ∃ out out', Writes n a doc out ∧ Writes n a doc' out' ∧ PeerText out out' := by
  by_cases h1 : n = b!"this"
  · subst h1; exact ⟨doc, doc', .this, .this, hd⟩
  by_cases h2 : n = b!"valid"
  · subst h2
    by_cases hj : JsonText doc
    · exact ⟨doc, doc', .valid hj, .valid ((peerText_json hd).1 hj), hd⟩
    · exact ⟨[], [], .invalid hj, .invalid fun h => hj ((peerText_json hd).2 h), .inl ⟨rfl, rfl⟩⟩
  by_cases h3 : n = b!"reverse"
  · subst h3
    rcases hd with ⟨rfl, rfl⟩ | ⟨v, v', hp, hp', hv⟩
    · exact ⟨[], [], .reverseNone, .reverseNone, .inl ⟨rfl, rfl⟩⟩
    · by_cases hc : IsCont v
      · rcases isCont_cases hv.left hc with ⟨kvs, ho⟩ | ⟨vs, ha⟩
        · obtain ⟨kvs', ho', hal⟩ := peer_members hv ho
          rcases ho with ⟨w, hw, rfl, rfl⟩ | ⟨ms, hne, hw, hx, rfl, rfl⟩
          · cases hal
            rcases ho' with ⟨w', hw', rfl, _⟩ | ⟨ms', hne', _, _, _, e⟩
            · exact ⟨_, _, .reverseEmpty hw hp, .reverseEmpty hw' hp', (peer_self (v := b!"{}") (.objEmpty (w := []) ws_nil)).text⟩
            · exact absurd (List.map_eq_nil_iff.1 e.symm) hne'
          · rcases ho' with ⟨w', hw', rfl, rfl⟩ | ⟨ms', hne', hw', hx', rfl, rfl⟩
            · have := aligned_len hal
              rw [List.length_map] at this
              exact absurd (List.length_eq_zero_iff.1 this) hne
            · refine ⟨_, _, .reverseObject hw hx hp, .reverseObject hw' hx' hp', Peer.text ?_⟩
              have wf : ∀ l : List Member, (∀ m ∈ l, m.Wf) → ∀ m ∈ l.reverse.map fun m => (⟨[], m.key, m.mid1, m.mid2, m.val, []⟩ : Member), m.Wf := by
                intro l hl m hm
                obtain ⟨x, hx, rfl⟩ := List.mem_map.1 hm
                have := hl x (List.mem_reverse.1 hx)
                exact ⟨ws_nil, this.2.1, this.2.2.1, this.2.2.2.1, ws_nil⟩
              have al : ∀ l l' : List Member, Aligned PeerMem (l.map fun m => (m.key, m.val)) (l'.map fun m => (m.key, m.val)) →
                  Aligned (fun m m' : Member => m.key = m'.key ∧ Peer m.val m'.val) l l' := by
                intro l
                induction l with
                | nil => intro l' h; cases l' with
                  | nil => exact .nil
                  | cons => cases h
                | cons m l ih => intro l' h; cases l' with
                  | nil => cases h
                  | cons => cases h with
                    | cons h1 h2 => exact .cons h1 (ih _ h2)
              have := peer_memText (wf ms hw) (wf ms' hw') (aligned_on (aligned_reverse (al _ _ hal)) fun a b h => h)
              rw [commaSep_members, List.map_map, commaSep_members, List.map_map] at this
              have e : (Member.text ∘ fun m : Member => (⟨[], m.key, m.mid1, m.mid2, m.val, []⟩ : Member)) = Member.bare := by
                funext m; simp [Member.text, Member.bare]
              rw [e] at this
              exact this
        · obtain ⟨vs', ha', hal⟩ := peer_elems hv ha
          refine ⟨_, _, .reverseArray ha hp, .reverseArray ha' hp', (peer_array ((aligned_reverse hal).imp' fun _ _ h => h.val) ?_).text⟩
          intro r hr
          exact isValue_ne_nil ((IsArray.mem_value ha r (List.mem_reverse.1 hr)).1)
      · have e := peer_leaf hv hc
        subst e
        unfold IsCont at hc
        rw [not_or] at hc
        exact ⟨v, v, .reverseScalar hv.left hc.1 hc.2 hp, .reverseScalar hv.left hc.1 hc.2 hp', hv.text⟩
  by_cases h4 : n = b!"ugly"
  · subst h4
    rcases hd with ⟨rfl, rfl⟩ | ⟨v, v', hp, hp', d, hv, hv'⟩
    · exact ⟨[], [], .uglyNone, .uglyNone, .inl ⟨rfl, rfl⟩⟩
    · have j : ∀ {v t}, Padded v t → Denotes v d → JsonText t := fun ⟨w1, w2, g1, g2, e⟩ h => ⟨w1, _, w2, e, g1, g2, value_of_denotes h⟩
      refine ⟨_, _, .ugly (j hp hv), .ugly (j hp' hv'), Peer.text ?_⟩
      rw [tokens_padded hp hv, tokens_padded hp' hv']
      exact ⟨d, denotes_bare hv, denotes_bare hv⟩
  · have hm : n ∉ modNames := by
      unfold modNames
      simp only [List.mem_cons, List.not_mem_nil, or_false, not_or] at hn ⊢
      exact ⟨h1, h2, h3, h4, hn⟩
    exact ⟨[], [], .unknown hm, .unknown hm, .inl ⟨rfl, rfl⟩⟩

theorem peer_deep {vs ls : List Bytes} (h : DeepFlattened vs ls) : ∀ {vs'}, Aligned Peer vs vs' → ∃ ls', DeepFlattened vs' ls' ∧ Aligned Peer ls ls' := by
  induction h with
  | nil => intro vs' h; cases h; exact ⟨[], .nil, .nil⟩
  | keep hk _ ih =>
    intro vs' h
    cases h with
    | cons h1 h2 =>
      obtain ⟨ls', g1, g2⟩ := ih h2
      exact ⟨_, .keep (peer_kind h1 ▸ hk) g1, .cons h1 g2⟩
  | splice ha _ _ ih1 ih2 =>
    intro vs' h
    cases h with
    | cons h1 h2 =>
      obtain ⟨ws', p1, p2⟩ := peer_elems h1 ha
      obtain ⟨ls', g1, g2⟩ := ih1 p2
      obtain ⟨ls2', g3, g4⟩ := ih2 h2
      exact ⟨_, .splice p1 g1 g3, aligned_append g2 g4⟩

theorem peer_objects {vs : List Bytes} {mss : List (List (Bytes × Bytes))} (h : ObjectsOf vs mss) :
    ∀ {vs'}, Aligned Peer vs vs' → ∃ mss', ObjectsOf vs' mss' ∧ Aligned PeerMem mss.flatten mss'.flatten := by
  induction h with
  | nil => intro vs' h; cases h; exact ⟨[], .nil, .nil⟩
  | skip hk _ ih =>
    intro vs' h
    cases h with
    | cons h1 h2 =>
      obtain ⟨ls', g1, g2⟩ := ih h2
      exact ⟨_, .skip (peer_kind h1 ▸ hk) g1, g2⟩
  | take ho _ ih =>
    intro vs' h
    cases h with
    | cons h1 h2 =>
      obtain ⟨ms', p1, p2⟩ := peer_members h1 ho
      obtain ⟨ls', g1, g2⟩ := ih h2
      exact ⟨_, .take p1 g1, by simpa using aligned_append p2 g2⟩

theorem peer_put {dec : Bytes → Bytes} {m m' : Bytes × Bytes} (hm : PeerMem m m') {l l' : List (Bytes × Bytes)} (h : Aligned PeerMem l l') :
    Aligned PeerMem (putMember dec m l) (putMember dec m' l') := by
  induction h with
  | nil => exact .cons hm .nil
  | cons h hs ih =>
    unfold putMember
    rw [← h.1, ← hm.1]
    split
    · exact .cons ⟨rfl, hm.2⟩ hs
    · exact .cons h ih

theorem peer_merge {dec : Bytes → Bytes} {l l' : List (Bytes × Bytes)} (h : Aligned PeerMem l l') :
    Aligned PeerMem (mergeMembers dec l) (mergeMembers dec l') := by
  have : ∀ acc acc', Aligned PeerMem acc acc' →
      Aligned PeerMem (l.foldl (fun acc m => putMember dec m acc) acc) (l'.foldl (fun acc m => putMember dec m acc) acc') := by
    induction h with
    | nil => exact fun _ _ h => h
    | cons h _ ih => exact fun _ _ ha => ih _ _ (peer_put h ha)
  exact this _ _ .nil

theorem value_height {v : Bytes} (h : IsValue v) : ∃ n, HasHeight n v := by
  obtain ⟨d, hd⟩ := denotes_of_value h
  exact ⟨d.height, d, hd, Nat.le_refl _⟩

theorem peer_flatten {a x doc doc' : Bytes} (hx : Means a b!"deep" x) (ht : Truth x true) (hd : PeerText doc doc') :
    ∃ out out', Writes b!"flatten" a doc out ∧ Writes b!"flatten" a doc' out' ∧ PeerText out out' := by
  rcases id hd with ⟨rfl, rfl⟩ | ⟨v, v', hp, hp', hv⟩
  · exact ⟨[], [], .noneArray (.inl rfl), .noneArray (.inl rfl), .inl ⟨rfl, rfl⟩⟩
  · by_cases hk : kindOf v = .array
    · rcases isCont_cases hv.left (.inr hk) with ⟨kvs, ho⟩ | ⟨ws, ha⟩
      · rw [IsObject.kindOf ho] at hk; cases hk
      · obtain ⟨n, hh⟩ := value_height hv.left
        obtain ⟨ls, h1, h2⟩ := deepFlattened_total _ ws (Nat.le_refl _) (hasHeight_elem hh ha)
        obtain ⟨ws', ha', hal⟩ := peer_elems hv ha
        obtain ⟨ls', h3, h4⟩ := peer_deep h1 hal
        exact ⟨_, _, .flattenDeep ha hp hx ht h1, .flattenDeep ha' hp' hx ht h3,
          (peer_array (h4.imp' fun _ _ h => h.val) fun r hr => isValue_ne_nil (h2 r hr).value).text⟩
    · exact ⟨doc, doc', .noArray (.inl rfl) hv.left hk hp, .noArray (.inl rfl) hv.right (peer_kind hv ▸ hk) hp', hd⟩

theorem peer_join {a x doc doc' : Bytes} (hx : Means a b!"preserve" x) (ht : Truth x false) (hd : PeerText doc doc') :
    ∃ out out', Writes b!"join" a doc out ∧ Writes b!"join" a doc' out' ∧ PeerText out out' := by
  rcases id hd with ⟨rfl, rfl⟩ | ⟨v, v', hp, hp', hv⟩
  · exact ⟨[], [], .noneArray (.inr rfl), .noneArray (.inr rfl), .inl ⟨rfl, rfl⟩⟩
  · by_cases hk : kindOf v = .array
    · rcases isCont_cases hv.left (.inr hk) with ⟨kvs, ho⟩ | ⟨ws, ha⟩
      · rw [IsObject.kindOf ho] at hk; cases hk
      · obtain ⟨n, hh⟩ := value_height hv.left
        obtain ⟨mss, h1, h2⟩ := objectsOf_total ws (hasHeight_elem hh ha)
        obtain ⟨ws', ha', hal⟩ := peer_elems hv ha
        obtain ⟨mss', h3, h4⟩ := peer_objects h1 hal
        have hl := objectsOf_lit h1
        have hl' := objectsOf_lit h3
        obtain ⟨dec, hdec⟩ := Classical.axiomOfChoice (r := fun kl s => StrLit kl → Content kl s) (by
          intro kl
          by_cases hs : StrLit kl
          · obtain ⟨s, h⟩ := content_total hs
            exact ⟨s, fun _ => h⟩
          · exact ⟨[], fun h => absurd h hs⟩)
        refine ⟨_, _, .join ha hp hx ht h1 (fun m hm => hdec _ (hl m hm).1), .join ha' hp' hx ht h3 (fun m hm => hdec _ (hl' m hm).1),
          (peer_object ((peer_merge h4).imp' fun _ _ h => ⟨h.1, h.2.val⟩) ?_).text⟩
        intro m hm
        have := mergeMembers_mem (P := StrLit) (Q := HasHeight n) (fun m hm => ⟨(hl m hm).1, h2 m hm⟩) m hm
        exact ⟨this.1, isValue_ne_nil this.2.value⟩
    · exact ⟨doc, doc', .noArray (.inr rfl) hv.left hk hp, .noArray (.inr rfl) hv.right (peer_kind hv ▸ hk) hp', hd⟩

theorem sizedVal_peer {n : Nat} {x : Bytes} (h : SizedVal n x) : PeerVal x x := by
  rcases h with rfl | ⟨v, w, e, ⟨d, h1, _⟩, h2, h3⟩
  · exact peerVal_nil
  · exact .inr ⟨v, v, w, w, e, e, ⟨d, h1, h1⟩, h2, h2, h3.imp (fun h => ⟨h, h⟩) id⟩

theorem peer_pretty {a doc doc' xi xp xs xw indent pfx : Bytes} {sort : Bool} {n width : Nat}
    (gi : Means a b!"indent" xi) (hi : xi = [] ∧ indent = b!"  " ∨ xi ≠ [] ∧ StrVal xi indent) (wi : Ws indent)
    (gp : Means a b!"prefix" xp) (hx : StrVal xp pfx) (wx : Ws pfx) (gs : Means a b!"sortKeys" xs) (hs : Truth xs sort)
    (gw : Means a b!"width" xw) (hw : xw = [] ∧ width = 80 ∨ xw ≠ [] ∧ UnsignedVal xw n ∧ width = min n (2 ^ 32 - 1))
    (hd : PeerText doc doc') :
    ∃ out out' x x', Writes b!"pretty" a doc out ∧ Writes b!"pretty" a doc' out' ∧ Kept out x ∧ Kept out' x' ∧ PeerVal x x' := by
  rcases hd with ⟨rfl, rfl⟩ | ⟨v, v', hp, hp', d, hv, hv'⟩
  · have hb : Ws (if pfx = [] then [] else pfx ++ b!"\n") := by
      split
      · exact ws_nil
      · exact ws_line wx
    exact ⟨_, _, [], [], .prettyNone gp hx, .prettyNone gp hx, .blank hb, .blank hb, peerVal_nil⟩
  · have e := C43_laid hp hv ⟨width, pfx, indent, sort⟩
    have key : ∃ v' n, Padded v' (pfx ++ (d.laid ⟨width, pfx, indent⟩ sort 499 ++ b!"\n")) ∧ HasHeight n v' := by
      cases sort with
      | true =>
        obtain ⟨out, v', h1, h2, h3⟩ := C38_exact hp hv (o := ⟨width, pfx, indent, true⟩) wx wi rfl
        rw [e] at h1
        cases h1
        exact ⟨v', _, h2, _, h3, Nat.le_refl _⟩
      | false =>
        obtain ⟨out, v', h1, h2, h3⟩ := C31_document hp hv (o := ⟨width, pfx, indent, false⟩) wx wi rfl
        rw [e] at h1
        cases h1
        exact ⟨v', _, h2, _, h3, Nat.le_refl _⟩
    obtain ⟨u, n, h3⟩ := key
    obtain ⟨x, h1, h2⟩ := kept_total (.inr ⟨u, h3⟩)
    exact ⟨_, _, x, x, .pretty hp hv gi hi gp hx gs hs gw hw, .pretty hp' hv' gi hi gp hx gs hs gw hw, h1, h1, sizedVal_peer h2⟩

/-! ### Searching -/

/-- The rules give results with the same document. -/
def MeansPeer (path : Bytes) : Prop := ∀ doc doc', PeerText doc doc' → ∃ r r', Means doc path r ∧ Means doc' path r' ∧ PeerVal r r'

/-- The same for arrays and objects. -/
def SeeksPeer (path : Bytes) : Prop := ∀ v v', Peer v v' → IsCont v → ∃ r r' b, Seeks v path r b ∧ Seeks v' path r' b ∧ PeerVal r r'

/-- Entries with the same keys and documents. -/
inductive PeerSeen : Seen → Seen → Prop
  | member {kl v v' : Bytes} : Peer v v' → PeerSeen (.member kl v) (.member kl v')
  | stop : PeerSeen .stop .stop

theorem peerMem_seen {kvs kvs' : List (Bytes × Bytes)} (h : Aligned PeerMem kvs kvs') :
    Aligned PeerSeen (kvs.map fun m => .member m.1 m.2) (kvs'.map fun m => .member m.1 m.2) :=
  aligned_on h fun a b h => by rw [h.1]; exact .member h.2

theorem peer_met {vs : List Bytes} {es : List Seen} (h : Spec.Met vs es) : ∀ {vs'}, Aligned Peer vs vs' → ∃ es', Spec.Met vs' es' ∧ Aligned PeerSeen es es' := by
  induction h with
  | nil => intro vs' h; cases h; exact ⟨[], .nil, .nil⟩
  | str hk =>
    intro vs' h
    cases h with
    | cons h1 h2 => exact ⟨_, .str (peer_kind h1 ▸ hk), .cons .stop .nil⟩
  | scalar k1 k2 k3 _ ih =>
    intro vs' h
    cases h with
    | cons h1 h2 =>
      obtain ⟨es', g1, g2⟩ := ih h2
      exact ⟨es', .scalar (peer_kind h1 ▸ k1) (peer_kind h1 ▸ k2) (peer_kind h1 ▸ k3) g1, g2⟩
  | obj ho =>
    intro vs' h
    cases h with
    | cons h1 h2 =>
      obtain ⟨kvs', g1, g2⟩ := peer_members h1 ho
      exact ⟨_, .obj g1, aligned_append (peerMem_seen g2) (.cons .stop .nil)⟩
  | arr ha _ ih =>
    intro vs' h
    cases h with
    | cons h1 h2 =>
      obtain ⟨ws', g1, g2⟩ := peer_elems h1 ha
      obtain ⟨es', g3, g4⟩ := ih (aligned_append g2 h2)
      exact ⟨es', .arr g1 g3, g4⟩

theorem peer_then {t : Bytes} (ht : TailOk t) (ih : ∀ q, q.length < t.length → Route q → MeansPeer q) {x x' : Bytes}
    (hx : PeerVal x x') : ∃ r r', Then x t r ∧ Then x' t r' ∧ PeerVal r r' := by
  rcases ht with rfl | ⟨c, rest, rfl, hc, hr⟩
  · exact ⟨x, x', .done, .done, hx⟩
  · obtain ⟨r, r', h1, h2, h3⟩ := ih rest (by simp) hr x x' (peerVal_text hx)
    rcases hc with rfl | rfl
    · exact ⟨r, r', .dot h1, .dot h2, h3⟩
    · exact ⟨r, r', .pipe h1, .pipe h2, h3⟩

open Classical in
theorem peer_walks {k t : Bytes} (ht : ∀ x x', PeerVal x x' → ∃ r r', Then x t r ∧ Then x' t r' ∧ PeerVal r r')
    (hs : ∀ rest, t = c! '.' :: rest → (∀ c ∈ rest.head?, c ∉ b!"@{[") → ∀ x x', Peer x x' → IsCont x →
      ∃ r r' b, Seeks x rest r b ∧ Seeks x' rest r' b ∧ PeerVal r r')
    (n : Nat) : ∀ es es', weight es ≤ n → Aligned PeerSeen es es' → ∃ r r' b, Walks k t es r b ∧ Walks k t es' r' b ∧ PeerVal r r' := by
  obtain ⟨r0, r0', hr0, hr0', hm0⟩ := ht [] [] peerVal_nil
  induction n with
  | zero =>
    intro es es' hn hal
    cases hal with
    | nil => exact ⟨_, _, _, .nil hr0, .nil hr0', hm0⟩
    | cons h _ =>
      cases h with
      | stop => exact ⟨_, _, _, .stop hr0, .stop hr0', hm0⟩
      | member => simp [weight] at hn
  | succ n ihn =>
    intro es es' hn hal
    cases hal with
    | nil => exact ⟨_, _, _, .nil hr0, .nil hr0', hm0⟩
    | @cons _ _ es es' h hal =>
      cases h with
      | stop => exact ⟨_, _, _, .stop hr0, .stop hr0', hm0⟩
      | @member kl v v' hv =>
        simp only [weight] at hn
        by_cases hit : Selects k kl
        · by_cases hc : (kindOf v ≠ .object ∧ kindOf v ≠ .array) ∨ (∀ rest, t = c! '.' :: rest → ∃ c ∈ rest.head?, c ∈ b!"@{[")
          · obtain ⟨r, r', h1, h2, h3⟩ := ht v v' hv.val
            exact ⟨r, r', true, .hit hit hc h1, .hit hit (peer_kind hv ▸ hc) h2, h3⟩
          · rw [not_or] at hc
            obtain ⟨hc1, hc2⟩ := hc
            have hcont : IsCont v := by
              unfold IsCont
              by_cases hk : kindOf v = .object
              · exact .inl hk
              · exact .inr (Classical.byContradiction fun hk' => hc1 ⟨hk, hk'⟩)
            obtain ⟨rest, hc3⟩ := Classical.not_forall.1 hc2
            obtain ⟨e, hc4⟩ := Classical.not_imp.1 hc3
            obtain ⟨r, r', b, h1, h2, h3⟩ := hs rest e (fun c hc hx => hc4 ⟨c, hc, hx⟩) v v' hv hcont
            subst e
            cases b with
            | true => exact ⟨r, r', true, .into hit h1, .into hit h2, h3⟩
            | false =>
              obtain ⟨fs, g1, g2, _⟩ := met_one hv.left
              obtain ⟨fs', g3, g4⟩ := peer_met g1 (.cons hv .nil)
              obtain ⟨q, q', b, h4, h5, h6⟩ := ihn (fs ++ es) (fs' ++ es') (by rw [weight_append]; omega) (aligned_append g4 hal)
              exact ⟨q, q', b, .again hit h1 g1 h4, .again hit h2 g3 h5, h6⟩
        · obtain ⟨r, r', b, h1, h2, h3⟩ := ihn es es' (by omega) hal
          exact ⟨r, r', b, .skip hit h1, .skip hit h2, h3⟩

/-- The answers of a query. -/
theorem peer_tests {q lh rh : Bytes} {op : Option Op} (hq : QueryText q lh op rh) (hr : Right rh)
    (ih : lh ≠ [] → MeansPeer lh) {vs vs' : List Bytes} (hv : Aligned Peer vs vs') :
    ∃ test : Bytes → Bool, (∀ v ∈ vs, Test lh op rh v (test v)) ∧ (∀ v ∈ vs', Test lh op rh v (test v)) ∧
      Aligned (fun v v' => Peer v v' ∧ test v = test v') vs vs' := by
  have one : ∀ v v', Peer v v' → ∃ b, Test lh op rh v b ∧ Test lh op rh v' b := fun v v' h =>
    peer_test hq hr h fun hn => ih hn v v' h.text
  have : ∀ v, ∃ b, (v ∈ vs ∨ v ∈ vs') → Test lh op rh v b := by
    intro v
    by_cases hm : v ∈ vs ∨ v ∈ vs'
    · rcases hm with hm | hm
      · obtain ⟨v', _, h⟩ := aligned_left hv v hm
        obtain ⟨b, hb, _⟩ := one _ _ h
        exact ⟨b, fun _ => hb⟩
      · obtain ⟨v', _, h⟩ := aligned_right hv v hm
        obtain ⟨b, _, hb⟩ := one _ _ h
        exact ⟨b, fun _ => hb⟩
    · exact ⟨false, fun h => absurd h hm⟩
  obtain ⟨test, htest⟩ := Classical.axiomOfChoice this
  refine ⟨test, fun v h => htest v (.inl h), fun v h => htest v (.inr h), (aligned_mem hv).imp' fun v v' ⟨h1, h2, h3⟩ => ⟨h3, ?_⟩⟩
  obtain ⟨b, p, q⟩ := one _ _ h3
  rw [test_det h3.left (htest v (.inl h1)) p, test_det h3.right (htest v' (.inr h2)) q]

/-- The rest of the path in each element. -/
theorem peer_map {q : Bytes} (ih : MeansPeer q) {vs vs' : List Bytes} (hv : Aligned Peer vs vs') :
    ∃ f : Bytes → Bytes, (∀ v ∈ vs, Means v q (f v)) ∧ (∀ v ∈ vs', Means v q (f v)) ∧ Aligned PeerVal (vs.map f) (vs'.map f) := by
  have : ∀ v, ∃ r, (v ∈ vs ∨ v ∈ vs') → Means v q r := by
    intro v
    by_cases hm : v ∈ vs ∨ v ∈ vs'
    · rcases hm with hm | hm
      · obtain ⟨v', _, h⟩ := aligned_left hv v hm
        obtain ⟨r, _, hb, _⟩ := ih _ _ h.text
        exact ⟨r, fun _ => hb⟩
      · obtain ⟨v', _, h⟩ := aligned_right hv v hm
        obtain ⟨_, r, _, hb, _⟩ := ih _ _ h.text
        exact ⟨r, fun _ => hb⟩
    · exact ⟨[], fun h => absurd h hm⟩
  obtain ⟨f, hf⟩ := Classical.axiomOfChoice this
  refine ⟨f, fun v h => hf v (.inl h), fun v h => hf v (.inr h), aligned_on (aligned_mem hv) fun v v' ⟨h1, h2, h3⟩ => ?_⟩
  obtain ⟨r, r', p, q, h4⟩ := ih _ _ h3.text
  rw [means_det (hf v (.inl h1)) p, means_det (hf v' (.inr h2)) q]
  exact h4

theorem peer_filter {rs rs' : List Bytes} (h : Aligned PeerVal rs rs') :
    Peer (arrayText (rs.filter fun x => x ≠ [])) (arrayText (rs'.filter fun x => x ≠ [])) := by
  refine peer_array (aligned_filter h fun a b hab => ?_) fun r hr => ?_
  · have := peerVal_empty hab
    by_cases ha : a = []
    · simp [ha, this.1 ha]
    · have hb : b ≠ [] := fun hb => ha (this.2 hb)
      simp [ha, hb]
  · rw [List.mem_filter] at hr
    simpa using hr.2

theorem peer_rows {k t : Bytes} (hk : Leg k) (hstep : ∀ c ∈ k.head?, c ∉ b!"@{[") (ht : TailOk t)
    (ih : ∀ q, q.length < (k ++ t).length → Route q → MeansPeer q) {vs vs' : List Bytes} (hv : Aligned Peer vs vs') :
    ∃ r r' b, Rows vs (k ++ t) r b ∧ Rows vs' (k ++ t) r' b ∧ PeerVal r r' := by
  have hkl : 0 < k.length := List.length_pos_iff.2 (leg_ne_nil hk)
  rw [List.length_append] at ih
  have thn : ∀ {t' x x' : Bytes}, TailOk t' → t'.length ≤ t.length → PeerVal x x' → ∃ r r', Then x t' r ∧ Then x' t' r' ∧ PeerVal r r' :=
    fun ht' hle hx => peer_then ht' (fun q hq hr => ih q (by omega) hr) hx
  have hcase : (∃ _ : Selector k, True) ∨ k = b!"#" ∨ (∃ q lh rh op, k = b!"#(" ++ (q ++ b!")") ∧ QueryText q lh op rh ∧ (lh ≠ [] → Route lh) ∧ Right rh) ∨
      (∃ q lh rh op, k = b!"#(" ++ (q ++ b!")#") ∧ QueryText q lh op rh ∧ (lh ≠ [] → Route lh) ∧ Right rh) ∨ ∃ c r, k = c :: r ∧ c ∈ b!"@{[" := by
    have call : ∀ {n a m}, ModCall n a m → ∃ c r, m = c :: r ∧ c ∈ b!"@{[" := by
      intro n a m h
      cases h <;> exact ⟨_, _, rfl, by decide⟩
    cases hk with
    | selector h => exact .inl ⟨h, trivial⟩
    | hash => exact .inr (.inl rfl)
    | first h1 h2 h3 => exact .inr (.inr (.inl ⟨_, _, _, _, rfl, h1, h2, h3⟩))
    | all h1 h2 h3 => exact .inr (.inr (.inr (.inl ⟨_, _, _, _, rfl, h1, h2, h3⟩)))
    | call h => exact .inr (.inr (.inr (.inr (call h))))
    | flatten h => exact .inr (.inr (.inr (.inr (call h))))
    | join h => exact .inr (.inr (.inr (.inr (call h))))
    | pretty h => exact .inr (.inr (.inr (.inr (call h))))
    | array h => exact .inr (.inr (.inr (.inr ⟨_, _, rfl, by decide⟩)))
    | object h => exact .inr (.inr (.inr (.inr ⟨_, _, rfl, by decide⟩)))
  rcases hcase with ⟨hs, _⟩ | rfl | ⟨q, lh, rh, op, rfl, hq, hl, hr⟩ | ⟨q, lh, rh, op, rfl, hq, hl, hr⟩ | ⟨c, r, rfl, hc⟩
  · -- an index
    by_cases hx : ∃ n e, IndexText k n ∧ n < 2 ^ 63 ∧ vs[n]? = some e
    · obtain ⟨n, e, h1, h2, h3⟩ := hx
      rcases aligned_at hv n with ⟨h, _⟩ | ⟨a, b, p, q, hab⟩
      · rw [h] at h3; cases h3
      · obtain ⟨r, r', g1, g2, g3⟩ := thn ht (Nat.le_refl _) hab.val
        exact ⟨r, r', true, .elem hs h1 h2 p g1, .elem hs h1 h2 q g2, g3⟩
    · obtain ⟨r, r', g1, g2, g3⟩ := thn ht (Nat.le_refl _) peerVal_nil
      have hx' : ∀ n, IndexText k n → n < 2 ^ 63 → vs[n]? = none ∧ vs'[n]? = none := by
        intro n h1 h2
        rcases aligned_at hv n with h | ⟨a, b, p, q, hab⟩
        · exact h
        · exact absurd ⟨n, a, h1, h2, p⟩ hx
      exact ⟨r, r', false, .beyond hs (fun n h1 h2 => (hx' n h1 h2).1) g1, .beyond hs (fun n h1 h2 => (hx' n h1 h2).2) g2, g3⟩
  · -- #
    rcases tail_cases ht with ht' | ⟨rest, rfl, hr⟩
    · obtain ⟨r, r', g1, g2, g3⟩ := thn ht (Nat.le_refl _) (peer_self (numeral_height vs.length).value).val
      refine ⟨r, r', true, .count (pipe_head ht').1 g1, .count (pipe_head ht').1 ?_, g3⟩
      rw [← aligned_len hv]
      exact g2
    · obtain ⟨ks, t', e, h2, h3, h4, h5⟩ := route_dots hr
      have hlen : (dotPath ks).length + t'.length = rest.length := by rw [e]; simp
      simp only [List.length_cons] at ih thn
      obtain ⟨f, hf, hf', hal⟩ := peer_map (ih (dotPath ks) (by omega) h4) hv
      obtain ⟨r, r', g1, g2, g3⟩ := thn (pipe_head h5).2 (by omega) (peer_filter hal).val
      refine ⟨r, r', true, ?_, ?_, g3⟩
      · rw [e]; exact .map h3 h2 (pipe_head h5).1 hf g1
      · rw [e]; exact .map h3 h2 (pipe_head h5).1 hf' g2
  · -- the first match
    have hql := queryText_len hq
    obtain ⟨test, htest, htest', hal⟩ := peer_tests hq hr (fun hn => ih lh (by simp; omega) (hl hn)) hv
    rcases aligned_find (p := test) (q := test) hal fun _ _ h => h.2 with ⟨h1, h2⟩ | ⟨a, b, h1, h2, hab, _⟩
    · obtain ⟨r, r', g1, g2, g3⟩ := thn ht (Nat.le_refl _) peerVal_nil
      exact ⟨r, r', false, .firstNone hq htest h1 g1, .firstNone hq htest' h2 g2, g3⟩
    · obtain ⟨r, r', g1, g2, g3⟩ := thn ht (Nat.le_refl _) hab.val
      exact ⟨r, r', true, .first hq htest h1 g1, .first hq htest' h2 g2, g3⟩
  · -- all matches
    have hql := queryText_len hq
    obtain ⟨test, htest, htest', hal⟩ := peer_tests hq hr (fun hn => ih lh (by simp; omega) (hl hn)) hv
    have hvf : Aligned Peer (vs.filter test) (vs'.filter test) := (aligned_filter hal fun _ _ h => h.2).imp' fun _ _ h => h.1
    rcases tail_cases ht with ht' | ⟨rest, rfl, hr⟩
    · obtain ⟨r, r', g1, g2, g3⟩ := thn ht (Nat.le_refl _) (peer_array (hvf.imp' fun _ _ h => h.val) (by
        intro x hx
        obtain ⟨_, _, h⟩ := aligned_left hvf x hx
        exact isValue_ne_nil h.left)).val
      exact ⟨r, r', true, .all hq htest (pipe_head ht').1 g1, .all hq htest' (pipe_head ht').1 g2, g3⟩
    · obtain ⟨ks, t', e, h2, h3, h4, h5⟩ := route_dots hr
      have hlen : (dotPath ks).length + t'.length = rest.length := by rw [e]; simp
      simp only [List.length_cons] at ih thn
      obtain ⟨f, hf, hf', hal'⟩ := peer_map (ih (dotPath ks) (by omega) h4) hvf
      obtain ⟨r, r', g1, g2, g3⟩ := thn (pipe_head h5).2 (by omega) (peer_filter hal').val
      refine ⟨r, r', true, ?_, ?_, g3⟩
      · rw [e]; exact .allMap hq htest h3 h2 (pipe_head h5).1 hf g1
      · rw [e]; exact .allMap hq htest' h3 h2 (pipe_head h5).1 hf' g2
  · exact absurd hc (hstep c (by simp))

theorem peer_seeks {k t : Bytes} (hk : Leg k) (hstep : ∀ c ∈ k.head?, c ∉ b!"@{[") (ht : TailOk t)
    (ih : ∀ q, q.length < (k ++ t).length → Route q → MeansPeer q)
    (ihs : ∀ q, q.length < (k ++ t).length → Route q → (∀ c ∈ q.head?, c ∉ b!"@{[") → SeeksPeer q) : SeeksPeer (k ++ t) := by
  intro v v' hv hc
  have hs : Step k := by
    rcases leg_step hk with h | ⟨c, r, rfl, h⟩
    · exact h
    · exact absurd h (hstep c (by simp))
  rcases isCont_cases hv.left hc with ⟨kvs, ho⟩ | ⟨vs, ha⟩
  · obtain ⟨kvs', ho', hal⟩ := peer_members hv ho
    have hkl : 0 < k.length := List.length_pos_iff.2 (leg_ne_nil hk)
    rw [List.length_append] at ih ihs
    obtain ⟨r, r', b, h1, h2, h3⟩ := peer_walks (k := k) (t := t) (fun x x' hx => peer_then ht (fun q hq hr => ih q (by omega) hr) hx) (by
      intro rest e hh x x' hx hc
      subst e
      rcases tail_cases ht with (ht | ⟨rest', e, _⟩) | ⟨rest', e, hr⟩
      · cases ht
      · cases e
      · cases e
        simp only [List.length_cons] at ihs
        exact ihs rest (by omega) hr hh x x' hx hc) _ _ _ (Nat.le_refl _) (peerMem_seen hal)
    exact ⟨r, r', b, .obj ho hs h1, .obj ho' hs h2, h3⟩
  · obtain ⟨vs', ha', hal⟩ := peer_elems hv ha
    obtain ⟨r, r', b, h1, h2, h3⟩ := peer_rows hk hstep ht ih hal
    exact ⟨r, r', b, .arr ha h1, .arr ha' h2, h3⟩

/-- The sub paths of a multipath. -/
theorem peer_subs {es : List (Bytes × Bytes)} {doc doc' : Bytes} (hr : ∀ e ∈ es, MeansPeer e.2) (hd : PeerText doc doc') :
    ∃ f f' : Bytes → Bytes, ∀ e ∈ es, Means doc e.2 (f e.2) ∧ Means doc' e.2 (f' e.2) ∧ PeerVal (f e.2) (f' e.2) := by
  have : ∀ q, ∃ r : Bytes × Bytes, (∃ e ∈ es, e.2 = q) → Means doc q r.1 ∧ Means doc' q r.2 ∧ PeerVal r.1 r.2 := by
    intro q
    by_cases hm : ∃ e ∈ es, e.2 = q
    · obtain ⟨e, he, rfl⟩ := hm
      obtain ⟨r, r', h⟩ := hr e he doc doc' hd
      exact ⟨(r, r'), fun _ => h⟩
    · exact ⟨([], []), fun h => absurd h hm⟩
  obtain ⟨f, hf⟩ := Classical.axiomOfChoice this
  exact ⟨fun q => (f q).1, fun q => (f q).2, fun e he => hf e.2 ⟨e, he, rfl⟩⟩

theorem peer_step {k t : Bytes} (hk : Leg k) (hs : Step k) (ht : TailOk t)
    (ih : ∀ q, q.length < (k ++ t).length → Route q → MeansPeer q) (hseek : SeeksPeer (k ++ t)) : MeansPeer (k ++ t) := by
  intro doc doc' hd
  have hkl : 0 < k.length := List.length_pos_iff.2 (leg_ne_nil hk)
  obtain ⟨r, r', h1, h2, h3⟩ := peer_then ht (fun q hq hr => ih q (by simp; omega) hr) peerVal_nil
  rcases hd with ⟨rfl, rfl⟩ | ⟨v, v', hp, hp', hv⟩
  · exact ⟨r, r', .empty hs h1, .empty hs h2, h3⟩
  · by_cases hc : IsCont v
    · obtain ⟨r, r', b, h1, h2, h3⟩ := hseek v v' hv hc
      exact ⟨r, r', .look hp h1, .look hp' h2, h3⟩
    · have hc' := fun h => hc ((peer_cont hv).2 h)
      unfold IsCont at hc hc'
      rw [not_or] at hc
      exact ⟨r, r', .scalar hv.left hp hc.1 hc.2 hs h1, .scalar hv.right hp' (fun h => hc' (.inl h)) (fun h => hc' (.inr h)) hs h2, h3⟩

theorem peer_mod {n a k t : Bytes} (hm : ModCall n a k) (ht : TailOk t)
    (ih : ∀ q, q.length < (k ++ t).length → Route q → MeansPeer q)
    (hw : ∀ doc doc', PeerText doc doc' →
      ∃ out out' x x', Writes n a doc out ∧ Writes n a doc' out' ∧ Kept out x ∧ Kept out' x' ∧ PeerVal x x') :
    MeansPeer (k ++ t) := by
  intro doc doc' hd
  have hkl := call_len hm
  obtain ⟨out, out', x, x', h1, h1', h2, h2', h3⟩ := hw doc doc' hd
  obtain ⟨r, r', h4, h5, h6⟩ := peer_then ht (fun q hq hr => ih q (by simp; omega) hr) h3
  exact ⟨r, r', .call hm h1 h2 h4, .call hm h1' h2' h5, h6⟩

theorem peer_kept' {n a doc doc' : Bytes} (hw : ∃ out out', Writes n a doc out ∧ Writes n a doc' out' ∧ PeerText out out') :
    ∃ out out' x x', Writes n a doc out ∧ Writes n a doc' out' ∧ Kept out x ∧ Kept out' x' ∧ PeerVal x x' := by
  obtain ⟨out, out', h1, h2, h3⟩ := hw
  obtain ⟨x, x', h4, h5, h6⟩ := peer_kept h3
  exact ⟨out, out', x, x', h1, h2, h4, h5, h6⟩

theorem peer_leg {k t : Bytes} (hk : Leg k) (ht : TailOk t)
    (ih : ∀ q, q.length < (k ++ t).length → Route q → MeansPeer q)
    (hseek : Step k → (∀ c ∈ k.head?, c ∉ b!"@{[") → SeeksPeer (k ++ t)) : MeansPeer (k ++ t) := by
  cases hk with
  | selector hs => exact peer_step (.selector hs) (.selector hs) ht ih (hseek (.selector hs) (selector_head hs))
  | hash => exact peer_step .hash .hash ht ih (hseek .hash (by decide))
  | first h1 h2 h3 => exact peer_step (.first h1 h2 h3) (.first h1) ht ih (hseek (.first h1) (by simp))
  | all h1 h2 h3 => exact peer_step (.all h1 h2 h3) (.all h1) ht ih (hseek (.all h1) (by simp))
  | call hm hn => exact peer_mod hm ht ih fun doc doc' hd => peer_kept' (peer_call hn hd)
  | flatten hm h1 h2 => exact peer_mod hm ht ih fun doc doc' hd => peer_kept' (peer_flatten h1 h2 hd)
  | join hm h1 h2 => exact peer_mod hm ht ih fun doc doc' hd => peer_kept' (peer_join h1 h2 hd)
  | pretty hm h1 h2 h3 h4 h5 h6 h7 h8 h9 h10 => exact peer_mod hm ht ih fun doc doc' hd => peer_pretty h1 h2 h3 h4 h5 h6 h7 h8 h9 h10 hd
  | @array ts es h1 h2 h3 =>
    intro doc doc' hd
    have e : (c! '[' :: (commaSep ts ++ [c! ']'])) ++ t = c! '[' :: (commaSep ts ++ c! ']' :: t) := by simp
    have el : (c! '[' :: (commaSep ts ++ [c! ']']) ++ t).length = (commaSep ts).length + 2 + t.length := by simp; omega
    rw [el] at ih
    have hl := entries_len h1
    obtain ⟨f, f', hf⟩ := peer_subs (fun e he => ih e.2 (by have := hl e he; omega) (h3 e he)) hd
    have hal : Aligned PeerVal (es.map fun e => f e.2) (es.map fun e => f' e.2) := by
      clear h1 h3 hl
      induction es with
      | nil => exact .nil
      | cons e es ih => exact .cons (hf e (by simp)).2.2 (ih fun x hx => hf x (List.mem_cons_of_mem _ hx))
    obtain ⟨r, r', h4, h5, h6⟩ := peer_then ht (fun q hq hr => ih q (by omega) hr) (peer_filter hal).val
    rw [e]
    exact ⟨r, r', .array h1 h2 (fun e he => (hf e he).1) h4, .array h1 h2 (fun e he => (hf e he).2.1) h5, h6⟩
  | @object ts es h1 h2 h3 =>
    intro doc doc' hd
    have e : (c! '{' :: (commaSep ts ++ [c! '}'])) ++ t = c! '{' :: (commaSep ts ++ c! '}' :: t) := by simp
    have el : (c! '{' :: (commaSep ts ++ [c! '}']) ++ t).length = (commaSep ts).length + 2 + t.length := by simp; omega
    rw [el] at ih
    have hl := entries_len h1
    obtain ⟨f, f', hf⟩ := peer_subs (fun e he => ih e.2 (by have := hl e he; omega) (h3 e he)) hd
    have hal : Aligned (fun m m' : Bytes × Bytes => m.1 = m'.1 ∧ PeerVal m.2 m'.2) (es.map fun e => (Spec.quoted e.1, f e.2))
        (es.map fun e => (Spec.quoted e.1, f' e.2)) := by
      clear h1 h3 hl
      induction es with
      | nil => exact .nil
      | cons e es ih => exact .cons ⟨rfl, (hf e (by simp)).2.2⟩ (ih fun x hx => hf x (List.mem_cons_of_mem _ hx))
    have hp := peer_object (aligned_filter (p := fun m => decide (m.2 ≠ [])) (q := fun m => decide (m.2 ≠ [])) hal fun a b hab => by
      have := peerVal_empty hab.2
      by_cases ha : a.2 = []
      · simp [ha, this.1 ha]
      · have hb : b.2 ≠ [] := fun hb => ha (this.2 hb)
        simp [ha, hb]) (by
      intro m hm
      rw [List.mem_filter] at hm
      obtain ⟨v, hv, rfl⟩ := List.mem_map.1 hm.1
      exact ⟨quoted_lit _, by simpa using hm.2⟩)
    obtain ⟨r, r', h4, h5, h6⟩ := peer_then ht (fun q hq hr => ih q (by omega) hr) hp.val
    rw [e]
    exact ⟨r, r', .object h1 h2 (fun e he => (hf e he).1) h4, .object h1 h2 (fun e he => (hf e he).2.1) h5, h6⟩

theorem route_peer_aux (n : Nat) : ∀ path : Bytes, path.length = n → Route path →
    MeansPeer path ∧ ((∀ c ∈ path.head?, c ∉ b!"@{[") → SeeksPeer path) := by
  induction n using Nat.strongRecOn with
  | ind n ih =>
    intro path hn hr
    obtain ⟨k, t, rfl, hk, ht⟩ := route_split hr
    have ih1 : ∀ q, q.length < (k ++ t).length → Route q → MeansPeer q := fun q hq hr => (ih _ (by omega) q rfl hr).1
    have ih2 : ∀ q, q.length < (k ++ t).length → Route q → (∀ c ∈ q.head?, c ∉ b!"@{[") → SeeksPeer q :=
      fun q hq hr => (ih _ (by omega) q rfl hr).2
    refine ⟨peer_leg hk ht ih1 (fun _ h => peer_seeks hk h ht ih1 ih2), fun h => ?_⟩
    rw [head_append (leg_ne_nil hk)] at h
    exact peer_seeks hk h ht ih1 ih2

/-- Texts of the same document have results of the same document. -/
theorem route_peer {path : Bytes} (hr : Route path) : MeansPeer path := (route_peer_aux _ path rfl hr).1

/-- The same for JSON Lines. -/
theorem lines_peer {path doc doc' : Bytes} {vs vs' : List Bytes} (hr : Route path) (hs : ∀ c ∈ path.head?, c ∉ b!"@{[")
    (hj : JsonLines doc vs) (hj' : JsonLines doc' vs') (hv : Aligned Peer vs vs') :
    ∃ r r', Means doc (b!".." ++ path) r ∧ Means doc' (b!".." ++ path) r' ∧ PeerVal r r' := by
  obtain ⟨k, t, rfl, hk, ht⟩ := route_split hr
  rw [head_append (leg_ne_nil hk)] at hs
  obtain ⟨r, r', b, h1, h2, h3⟩ := peer_rows hk hs ht (fun q _ hr => route_peer hr) hv
  exact ⟨r, r', .lines hj h1, .lines hj' h2, h3⟩

/-! ### From tokens to documents -/

/-- A text has one document. -/
theorem denotes_fun {v : Bytes} {d : Doc} (h : Denotes v d) : ∀ {d'}, Denotes v d' → d = d' := by
  induction h with
  | leaf h1 h2 h3 =>
    intro d' h'
    have := denotes_kind h'
    cases h' with
    | leaf => rfl
    | arrEmpty => exact absurd this h3
    | arr => exact absurd this h3
    | objEmpty => exact absurd this h2
    | obj => exact absurd this h2
  | arrEmpty hw =>
    intro d' h'
    obtain ⟨ds, rfl, h⟩ := denotes_elems h' (.inl ⟨_, hw, rfl, rfl⟩)
    cases h
    rfl
  | @arr es hne hw hd ih =>
    intro d' h'
    have ha : IsArray _ _ := isArray_of_elems (es := es.map Prod.fst) (by simpa using fun a b hx => hw (a, b) hx)
      (by simpa using fun a b hx => value_of_denotes (hd (a, b) hx))
    obtain ⟨ds, rfl, h⟩ := denotes_elems h' ha
    congr 1
    clear ha h' hne hw hd
    induction es generalizing ds with
    | nil => cases h; rfl
    | cons e es ihe =>
      cases h with
      | cons h1 h2 =>
        rw [List.map_cons, ih e (by simp) h1, ihe (fun x hx => ih x (List.mem_cons_of_mem _ hx)) _ h2]
  | objEmpty hw =>
    intro d' h'
    obtain ⟨ds, rfl, h⟩ := denotes_members h' (.inl ⟨_, hw, rfl, rfl⟩)
    cases h
    rfl
  | @obj es hne hw hd ih =>
    intro d' h'
    have ha : IsObject _ _ := isObject_of_members (ms := es.map Prod.fst) (by simpa using fun a b hx => hw (a, b) hx)
      (by simpa using fun a b hx => value_of_denotes (hd (a, b) hx))
    obtain ⟨ds, rfl, h⟩ := denotes_members h' ha
    congr 1
    clear ha h' hne hw hd
    induction es generalizing ds with
    | nil => cases h; rfl
    | cons e es ihe =>
      cases h with
      | @cons _ d _ ds h1 h2 =>
        rw [List.map_cons, ihe (fun x hx => ih x (List.mem_cons_of_mem _ hx)) _ h2, ih e (by simp) h1.2]
        congr 1
        exact Prod.ext h1.1 rfl

/-- JSON texts with the same tokens have the same document. -/
theorem peer_of_tokens {t t' : Bytes} (h : JsonText t) (h' : JsonText t') (e : tokens t = tokens t') :
    ∃ v v', Padded v t ∧ Padded v' t' ∧ Peer v v' := by
  obtain ⟨v, d, hp, hd⟩ := jsonText_doc h
  obtain ⟨v', d', hp', hd'⟩ := jsonText_doc h'
  rw [tokens_padded hp hd, tokens_padded hp' hd'] at e
  have h1 := denotes_bare hd
  rw [e] at h1
  have := denotes_fun h1 (denotes_bare hd')
  subst this
  exact ⟨v, v', hp, hp', d, hd, hd'⟩

theorem peerVal_tokens {x x' : Bytes} (h : PeerVal x x') : tokens x = tokens x' := by
  rcases h with ⟨rfl, rfl⟩ | ⟨v, v', w, w', rfl, rfl, ⟨d, h1, h2⟩, h3, h4, _⟩
  · rfl
  · rw [tokens_padded (t := v ++ w) ⟨[], w, ws_nil, h3, rfl⟩ h1, tokens_padded (t := v' ++ w') ⟨[], w', ws_nil, h4, rfl⟩ h2]

end Gjson
