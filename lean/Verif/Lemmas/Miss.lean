import Verif.Lemmas.Lookup
/-
Dot paths that lead nowhere.
-/
namespace Gjson
open Spec

theorem jsonIntoOwned_exists {v : Value} : (jsonIntoOwned v).exists = (decide (v.slice ≠ [] ∨ v.owned ≠ [])) := by
  unfold jsonIntoOwned Value.exists Value.json
  simp only
  cases v.slice <;> cases v.owned <;> simp

theorem exists_false {v : Value} : v.exists = false ↔ v.slice = [] ∧ v.owned = [] := by
  unfold Value.exists Value.json
  cases v.slice <;> cases v.owned <;> simp

theorem addIndex_exists (i : Option Nat) (v : Value) : (addIndex i v).exists = v.exists :=
  (sameValue_addIndex i v).exists

theorem addIndex_parts (i : Option Nat) (v : Value) :
    (addIndex i v).slice = v.slice ∧ (addIndex i v).owned = v.owned := by
  unfold addIndex; split <;> exact ⟨rfl, rfl⟩

/-- Searching what a missing value holds. -/
theorem getIn_missing {rec : GetFn} {v : Value} {path : Bytes} {w : Value} (hv : v.exists = false)
    (h : rec [] path = .ok w) (hw : w.exists = false) :
    ∃ u, getIn rec v path = .ok u ∧ u.exists = false := by
  obtain ⟨h1, h2⟩ := exists_false.1 hv
  obtain ⟨h3, h4⟩ := exists_false.1 hw
  unfold getIn
  rw [h1, if_neg (by simp), h2, h]
  refine ⟨_, rfl, ?_⟩
  rw [addIndex_exists, jsonIntoOwned_exists]
  simp [h3, h4]

/-- A text in which `get` finds no container. -/
def NoCont (s : Bytes) : Prop := ∀ c ∈ s.head?, ¬ c ≤ c! ' ' ∧ c ≠ c! '{' ∧ c ≠ c! '['

theorem gStart_noCont (rec : GetFn) (L : Nat) (path : Path) {s : Bytes} (h : NoCont s) :
    gStart rec L path s = .ok (Value.default, path) := by
  cases s with
  | nil => rfl
  | cons c r =>
    obtain ⟨h1, h2, h3⟩ := h c (by simp)
    rw [gStart, if_neg h1, if_neg h2, if_neg h3]

theorem get_noCont {ks : List Bytes} : ∀ {s : Bytes}, PlainComps ks → ks ≠ [] → NoCont s →
    ∃ w, get s (dotPath ks) = .ok w ∧ w.exists = false := by
  induction ks with
  | nil => intro s _ h; exact absurd rfl h
  | cons k ks ih =>
    intro s hp _ hs
    obtain ⟨hk, hk0⟩ := hp k (by simp)
    rw [get_dot hk (.inl hk0), gStart_noCont _ _ _ hs]
    simp only [ok_bind, finish]
    rw [plain_more]
    by_cases hks : ks = []
    · rw [if_pos hks]
      exact ⟨Value.default, rfl, rfl⟩
    · rw [if_neg hks, if_neg (by decide)]
      obtain ⟨w, h1, h2⟩ := ih (s := []) hp.tail hks (by intro c hc; simp at hc)
      exact getIn_missing rfl h1 h2

theorem noCont_scalar {v : Bytes} (hv : IsValue v) (hc : ¬ IsCont v) (q : Bytes) : NoCont (v ++ q) := by
  obtain ⟨c, r, rfl, hs⟩ := IsValue.cons hv
  rw [isCont_cons] at hc
  intro d hd
  simp at hd
  subst hd
  have := hs.not_skip.1
  grind

/-- The search went nowhere and the rest of the path changes nothing. -/
theorem finish_default {k : Bytes} {ks : List Bytes} {v : Value} (hv : v.exists = false) (hp : PlainComps ks) :
    ∃ w, finish (v, plainPath k (if ks = [] then 0 else c! '.') (dotPath ks)) = .ok w ∧ w.exists = false := by
  unfold finish
  simp only
  rw [plain_more]
  by_cases hks : ks = []
  · rw [if_pos hks]
    exact ⟨v, rfl, hv⟩
  · rw [if_neg hks, if_neg (by decide)]
    obtain ⟨w, h1, h2⟩ := get_noCont (s := []) hp hks (by intro c hc; simp at hc)
    exact getIn_missing hv h1 h2

/-! ### Keys that do not occur -/

theorem qStr_closed : ∀ {s b q : Bytes} {f : Bool}, qStr s = some (b, f, q) →
    b = b.dropLast ++ [c! '"'] ∧ (c! '\\' ∉ s → f = false) := by
  intro s
  fun_induction qStr s with
  | case1 => intro b q f h; simp at h
  | case2 r =>
    intro b q f h
    simp only [Option.some.injEq, Prod.mk.injEq] at h
    obtain ⟨rfl, rfl, rfl⟩ := h
    simp
  | case3 hc1 => intro b q f h; simp at h
  | case4 e r' hc1 ih =>
    intro b q f h
    cases hq : qStr r' with
    | none => rw [hq] at h; simp [push1, setEsc] at h
    | some x =>
      obtain ⟨b', f', q'⟩ := x
      rw [hq] at h
      simp only [push1, setEsc, Option.some.injEq, Prod.mk.injEq] at h
      obtain ⟨rfl, rfl, rfl⟩ := h
      obtain ⟨h1, h2⟩ := ih hq
      have hne := qStr_ne_nil hq
      refine ⟨?_, fun hn => by simp at hn⟩
      rw [List.dropLast_append_of_ne_nil hne, List.append_assoc, ← h1]
  | case5 c r hc1 hc2 ih =>
    intro b q f h
    cases hq : qStr r with
    | none => rw [hq] at h; simp [push1] at h
    | some x =>
      obtain ⟨b', f', q'⟩ := x
      rw [hq] at h
      simp only [push1, Option.some.injEq, Prod.mk.injEq] at h
      obtain ⟨rfl, rfl, rfl⟩ := h
      obtain ⟨h1, h2⟩ := ih hq
      have hne := qStr_ne_nil hq
      refine ⟨?_, fun hn => h2 (by simp at hn; exact hn.2)⟩
      rw [List.dropLast_append_of_ne_nil hne, List.append_assoc, ← h1]

theorem pSkipColon_suffix : ∀ s : Bytes, pSkipColon s <:+ s
  | [] => by simp [pSkipColon]
  | c :: r => by
    unfold pSkipColon
    split
    · exact (pSkipColon_suffix r).trans (List.suffix_cons c r)
    · exact List.suffix_rfl

theorem leafTok_suffix {s : Bytes} (hs : s ≠ []) : (leafTok s).2 <:+ s := by
  rcases leafTok_split hs with ⟨v, info, _, _, h⟩ | ⟨h, _⟩
  · exact ⟨v, h.symm⟩
  · rw [h]; exact List.nil_suffix

/-- A key with quotes around it. -/
def quoted (k : Bytes) : Bytes := c! '"' :: (k ++ [c! '"'])

/-- Without backslashes, a key that does not occur is not found. -/
theorem gObjLoop_absent (dive : Bytes → Res (Value × Path)) (L : Nat) (k : Bytes) (sep : UInt8) (rest : Bytes) :
    ∀ (s : Bytes), c! '\\' ∉ s → ¬ quoted k <:+: s →
      gObjLoop dive L (plainPath k sep rest) s = .ok (Value.default, plainPath k sep rest) := by
  intro s
  generalize hn : s.length = n
  induction n using Nat.strongRecOn generalizing s with
  | ind n ih =>
    intro hb hk
    cases s with
    | nil => exact gObjLoop_nil _ _ _
    | cons c r =>
      by_cases c1 : c = c! '}'
      · rw [c1, gObjLoop_close]
      by_cases c2 : c = c! '"'
      · subst c2
        cases hq : qStr r with
        | none => exact gObjLoop_nokey _ _ _ hq
        | some y =>
          obtain ⟨b, f, q⟩ := y
          have hbr : c! '\\' ∉ r := fun h => hb (List.mem_cons_of_mem _ h)
          have hsplit := qStr_append hq
          obtain ⟨x1, x2⟩ := qStr_closed hq
          have hf := x2 hbr
          cases hv : pSkipColon q with
          | nil => exact gObjLoop_noval _ _ _ hq hv
          | cons c3 r3 =>
            have hsuf : (leafTok (c3 :: r3)).2 <:+ c! '"' :: r := by
              refine (leafTok_suffix (by simp)).trans ?_
              rw [← hv]
              refine (pSkipColon_suffix q).trans ?_
              rw [hsplit]
              exact (List.suffix_append b q).trans (List.suffix_cons _ _)
            have hlen : (leafTok (c3 :: r3)).2.length < n := by
              have h1 := leafTok_lt (s := c3 :: r3) (by simp)
              have h2 := pSkipColon_le q
              have h3 := qStr_lt hq
              rw [hv] at h2
              simp at hn
              omega
            have hm : pKeyMatch (keyText b f) (plainPath k sep rest) = false := by
              rw [pKeyMatch_plain, hf]
              unfold keyText
              rw [if_neg (by simp)]
              simp only [decide_eq_false_iff_not]
              rintro rfl
              apply hk
              refine ⟨[], q, ?_⟩
              unfold quoted
              rw [← x1, hsplit]; simp
            rw [gObjLoop_key _ _ _ hq hv, hm, if_neg (by simp)]
            exact ih _ hlen _ rfl (fun h => hb (hsuf.subset h)) (fun h => hk (h.trans hsuf.isInfix))
      · rw [gObjLoop_skip _ _ _ _ c1 c2]
        exact ih r.length (by simp at hn; omega) r rfl (fun h => hb (List.mem_cons_of_mem _ h))
          (fun h => hk (h.trans (List.suffix_cons c r).isInfix))

theorem once_infix {q s t : Bytes} (h : AtMostOnce q s) (ht : t <:+: s) : AtMostOnce q t := by
  obtain ⟨x, y, rfl⟩ := ht
  intro a b a' b' h1 h2
  have := h (x ++ a) (b ++ y) (x ++ a') (b' ++ y) (by rw [h1]; simp) (by rw [h2]; simp)
  simpa using this

theorem once_after {q s a b : Bytes} (h : AtMostOnce q s) (hq : q ≠ []) (hs : s = a ++ (q ++ b)) : ¬ q <:+: b := by
  rintro ⟨x, y, rfl⟩
  have := h a (x ++ q ++ y) (a ++ (q ++ x)) y hs (by rw [hs]; simp)
  simp at this
  exact hq this.1

theorem first_split {α : Type} (P : α → Prop) (l : List α) :
    (∀ x ∈ l, ¬ P x) ∨ ∃ a x b, l = a ++ x :: b ∧ P x ∧ ∀ y ∈ a, ¬ P y := by
  induction l with
  | nil => left; simp
  | cons z l ih =>
    by_cases hz : P z
    · exact .inr ⟨[], z, l, rfl, hz, by simp⟩
    · rcases ih with h | ⟨a, x, b, rfl, h1, h2⟩
      · left
        intro x hx
        rcases List.mem_cons.1 hx with rfl | hx
        · exact hz
        · exact h x hx
      · refine .inr ⟨z :: a, x, b, rfl, h1, ?_⟩
        intro y hy
        rcases List.mem_cons.1 hy with rfl | hy
        · exact hz
        · exact h2 y hy

theorem keyIs_total {kl : Bytes} (h : StrLit kl) : ∃ s, KeyIs kl s ∧ ∀ s', KeyIs kl s' → s' = s := by
  obtain ⟨b, hb, rfl⟩ := h
  exact ⟨unesc b, (keyIs_lit hb).2 rfl, fun s' h => (keyIs_lit hb).1 h⟩

/-- Every object either has a first member with key `k` or none at all. -/
theorem object_split {t k : Bytes} {kvs : List (Bytes × Bytes)} (h : IsObject t kvs) :
    (∀ m ∈ kvs, ∃ s, KeyIs m.1 s ∧ s ≠ k) ∨
    ∃ before kl v after, kvs = before ++ (kl, v) :: after ∧ KeyIs kl k ∧ ∀ m ∈ before, ∃ s, KeyIs m.1 s ∧ s ≠ k := by
  have hlit : ∀ m ∈ kvs, StrLit m.1 := by
    rcases h with ⟨w, _, _, rfl⟩ | ⟨ms, _, hwf, _, _, rfl⟩
    · simp
    · intro m hm
      obtain ⟨x, hx, rfl⟩ := List.mem_map.1 hm
      exact (hwf x hx).2.1
  have key : ∀ m ∈ kvs, ¬ KeyIs m.1 k → ∃ s, KeyIs m.1 s ∧ s ≠ k := by
    intro m hm hn
    obtain ⟨s, h1, _⟩ := keyIs_total (hlit m hm)
    exact ⟨s, h1, by rintro rfl; exact hn h1⟩
  rcases first_split (fun m : Bytes × Bytes => KeyIs m.1 k) kvs with h1 | ⟨a, ⟨kl, v⟩, b, rfl, h1, h2⟩
  · exact .inl fun m hm => key m hm (h1 m hm)
  · exact .inr ⟨a, kl, v, b, rfl, h1, fun m hm => key m (by simp [hm]) (h2 m hm)⟩

theorem keyIs_noesc {kl k : Bytes} (h : StrLit kl) (hb : c! '\\' ∉ kl) (hk : KeyIs kl k) : kl = quoted k := by
  obtain ⟨b, hs, rfl⟩ := h
  rw [keyIs_lit hs, unesc_body hs (by simp at hb; exact hb)] at hk
  rw [hk]; rfl

theorem isCont_cases {v : Bytes} (hv : IsValue v) (hc : IsCont v) : (∃ kvs, IsObject v kvs) ∨ ∃ vs, IsArray v vs := by
  cases hv with
  | null => exact absurd hc (by decide)
  | «true» => exact absurd hc (by decide)
  | «false» => exact absurd hc (by decide)
  | str h => obtain ⟨b, _, rfl⟩ := h; rw [isCont_cons] at hc; exact absurd hc (by decide)
  | num h =>
    obtain ⟨c, q, rfl, hs⟩ := NumLit.cons h
    rw [isCont_cons] at hc
    unfold IsDigit at hs; grind
  | arrEmpty h => exact .inr ⟨[], .inl ⟨_, h, rfl, rfl⟩⟩
  | arr h1 h2 h3 => exact .inr ⟨_, .inr ⟨_, h1, h2, h3, rfl, rfl⟩⟩
  | objEmpty h => exact .inl ⟨[], .inl ⟨_, h, rfl, rfl⟩⟩
  | obj h1 h2 h3 => exact .inl ⟨_, .inr ⟨_, h1, h2, h3, rfl, rfl⟩⟩

theorem IsObject.mem_value {t kvs} (h : IsObject t kvs) : ∀ m ∈ kvs, StrLit m.1 ∧ IsValue m.2 := by
  rcases h with ⟨w, _, _, rfl⟩ | ⟨ms, _, hwf, hv, _, rfl⟩
  · simp
  · intro m hm
    obtain ⟨x, hx, rfl⟩ := List.mem_map.1 hm
    exact ⟨(hwf x hx).2.1, hv x hx⟩

theorem elemsText_mem {es : List Elem} {e : Elem} (h : e ∈ es) : e.val <:+: elemsText es := by
  induction es with
  | nil => simp at h
  | cons a es ih =>
    have hself : e = a → e.val <:+: a.text := by
      rintro rfl; exact ⟨e.pre, e.post, by simp [Elem.text]⟩
    cases es with
    | nil => simp at h; exact hself h
    | cons b es =>
      rw [elemsText]
      rcases List.mem_cons.1 h with h | h
      · exact (hself h).trans (List.prefix_append _ _).isInfix
      · exact (ih h).trans ((List.suffix_cons _ _).trans (List.suffix_append _ _)).isInfix

theorem IsArray.mem_value {t vs} (h : IsArray t vs) : ∀ v ∈ vs, IsValue v ∧ v <:+: t := by
  rcases h with ⟨w, _, _, rfl⟩ | ⟨es, _, hwf, hv, rfl, rfl⟩
  · simp
  · intro v hm
    obtain ⟨x, hx, rfl⟩ := List.mem_map.1 hm
    exact ⟨hv x hx, (elemsText_mem hx).trans ⟨[c! '['], [c! ']'], by simp⟩⟩

/-- A dot path that does not resolve finds nothing, provided that the document has
no escapes and none of the keys occurs twice. -/
theorem unresolved_search {ks : List Bytes} : PlainComps ks → ∀ {v : Bytes}, IsValue v → IsCont v → ks ≠ [] →
    (¬ ∃ r, Resolves KeyIs v ks r) → ∀ L q, Follow q → c! '\\' ∉ v ++ q →
    (∀ k ∈ ks, AtMostOnce (quoted k) (v ++ q)) →
    ∃ val p w, gCont get L (pNext (dotPath ks)) (v ++ q) = .ok (val, p) ∧ finish (val, p) = .ok w ∧ w.exists = false := by
  induction ks with
  | nil => intro _ v _ _ h; exact absurd rfl h
  | cons k ks ih =>
    intro hp v hv hc _ hn L q hq hb hone
    have hk := (hp k (by simp)).1
    rcases isCont_cases hv hc with ⟨kvs, ho⟩ | ⟨vs, ha⟩
    · obtain ⟨ms, h1, h2, h3, ⟨a0, h4⟩, h5⟩ := gCont_obj get L (pNext (dotPath (k :: ks))) (q := q) ho
      rw [h5, pNext_dot hk]
      rcases object_split (k := k) ho with hmiss | ⟨before, kl, v', after, rfl, hkl, hbefore⟩
      · rw [gObjLoop_miss _ _ _ h1 h2 (fun m hm => by
          obtain ⟨s, y1, y2⟩ := hmiss (m.key, m.val) (by rw [← h3]; exact List.mem_map_of_mem hm)
          exact ⟨s, y1, by rw [pKeyMatch_plain]; simp [y2]⟩)]
        obtain ⟨w, x1, x2⟩ := finish_default (k := k) (v := Value.default) rfl hp.tail
        exact ⟨_, _, w, rfl, x1, x2⟩
      · obtain ⟨hv', i, a, m, q', x1, x2, x3⟩ := gObjLoop_hit (fun v =>
            if (plainPath k (if ks = [] then 0 else c! '.') (dotPath ks)).dives then
              gCont get L (pNext (plainPath k (if ks = [] then 0 else c! '.') (dotPath ks)).extra) v
            else .ok (Value.default, (plainPath k (if ks = [] then 0 else c! '.') (dotPath ks)))) L
          (plainPath k (if ks = [] then 0 else c! '.') (dotPath ks)) (r := q) hkl
          (by rw [pKeyMatch_plain]; simp) h1 h2
          (fun m hm => by
            obtain ⟨s, y1, y2⟩ := hbefore m hm
            exact ⟨s, y1, by rw [pKeyMatch_plain]; simp [y2]⟩) h3
        have hn' : ¬ ∃ r, Resolves KeyIs v' ks r := by
          rintro ⟨r, hr⟩
          exact hn ⟨r, .key ho hbefore hkl hr⟩
        have hks : ks ≠ [] := by
          rintro rfl; exact hn' ⟨v', .here⟩
        have hsuf : v' ++ q' <:+ v ++ q := by
          rw [h4, x2]; exact ⟨a0 ++ (a ++ (kl ++ m)), by simp⟩
        have hb' : c! '\\' ∉ v' ++ q' := fun h => hb (hsuf.subset h)
        obtain ⟨hl, hv''⟩ := IsObject.mem_value ho (kl, v') (by simp)
        have hkl' : kl = quoted k := by
          refine keyIs_noesc hl (fun h => hb ?_) hkl
          rw [h4, x2]; simp [h]
        have habs : ¬ quoted k <:+: v' ++ q' := by
          have := once_after (hone k (by simp)) (b := m ++ (v' ++ q')) (a := a0 ++ a) (by simp [quoted])
            (by rw [h4, x2, hkl']; simp)
          exact fun h => this (h.trans (List.suffix_append m _).isInfix)
        rw [x3, if_neg hks]
        obtain ⟨k', ks', rfl⟩ : ∃ k' ks', ks = k' :: ks' := by
          cases ks with
          | nil => exact absurd rfl hks
          | cons a b => exact ⟨a, b, rfl⟩
        have hd := plain_dives (k := k) (ks := ks') (hp.tail k' (by simp)).1
        by_cases hc' : IsCont v'
        · rw [if_pos ⟨hd, hc'⟩, if_pos hd]
          have e : (plainPath k (c! '.') (dotPath (k' :: ks'))).extra = dotPath (k' :: ks') := rfl
          obtain ⟨val, p, w, z1, z2, z3⟩ := ih hp.tail hv' hc' (by simp) hn' L q' x1 hb'
            (fun x hx => once_infix (hone x (List.mem_cons_of_mem _ hx)) hsuf.isInfix)
          rw [e, z1]
          simp only [ok_bind]
          by_cases hval : val.exists = true
          · rw [if_pos hval]
            exact ⟨val, p, w, rfl, z2, z3⟩
          · rw [if_neg hval, gObjLoop_absent _ _ _ _ _ _ hb' habs]
            have := finish_default (k := k) (ks := k' :: ks') (v := Value.default) rfl hp.tail
            rw [if_neg (by simp)] at this
            obtain ⟨w, y1, y2⟩ := this
            exact ⟨_, _, w, rfl, y1, y2⟩
        · rw [if_neg (by simp [hc'])]
          obtain ⟨w, y1, y2⟩ := get_noCont hp.tail (by simp) (noCont_scalar hv' hc' [])
          refine ⟨_, _, addIndex (some i) w, rfl, ?_, by rw [addIndex_exists]; exact y2⟩
          unfold finish
          simp only
          rw [plain_more, if_neg (by decide), getIn_slice (by rw [leafVal, mkVal_slice]; exact isValue_ne_nil hv')]
          rw [leafVal, mkVal_slice, mkVal_index]
          rw [List.append_nil] at y1
          have e : (plainPath k (c! '.') (dotPath (k' :: ks'))).extra = dotPath (k' :: ks') := rfl
          rw [e, y1]; rfl
    · rw [gCont_arr get L _ ha, pNext_dot hk]
      have hdef : ∀ vals : List Value, ∃ val p w,
          (Except.ok (Value.default, plainPath k (if ks = [] then 0 else c! '.') (dotPath ks)) : Res (Value × Path)) =
            .ok (val, p) ∧ finish (val, p) = .ok w ∧ w.exists = false := by
        intro _
        obtain ⟨w, x1, x2⟩ := finish_default (k := k) (v := Value.default) rfl hp.tail
        exact ⟨_, _, w, rfl, x1, x2⟩
      by_cases hi : ∃ n, IndexText k n ∧ n < 2 ^ 63
      · obtain ⟨n, hi, hlt⟩ := hi
        rw [gArrVals_index _ hk hi hlt]
        have hal := array_toks ha q (L - (v ++ q).length)
        cases hvn : vs[n]? with
        | none =>
          have hge : vs.length ≤ n := by simpa using hvn
          rw [List.getD_eq_getElem?_getD, List.getElem?_eq_none (by rw [aligned_length hal]; exact hge)]
          exact hdef []
        | some v' =>
          obtain ⟨e, he, hs⟩ := aligned_get hal hvn
          obtain ⟨x1, x2⟩ := eachToks_exist _ _ _ e (List.mem_of_getElem? he)
          rw [List.getD_eq_getElem?_getD, he]
          have hn' : ¬ ∃ r, Resolves KeyIs v' ks r := by
            rintro ⟨r, hr⟩
            exact hn ⟨r, .index ha hi hlt hvn hr⟩
          have hks : ks ≠ [] := by
            rintro rfl; exact hn' ⟨v', .here⟩
          obtain ⟨k', ks', rfl⟩ : ∃ k' ks', ks = k' :: ks' := by
            cases ks with
            | nil => exact absurd rfl hks
            | cons a b => exact ⟨a, b, rfl⟩
          obtain ⟨hv', hinf⟩ := IsArray.mem_value ha v' (List.mem_of_getElem? hvn)
          have hj : e.slice = v' := by rw [← x2]; exact hs.1
          have hget : ∃ w, get v' (dotPath (k' :: ks')) = .ok w ∧ w.exists = false := by
            by_cases hc' : IsCont v'
            · obtain ⟨q', L', y1, y0, y3, y2⟩ := get_of_cont (ks := ks') (hp.tail k' (by simp)).1
                (.inl (hp.tail k' (by simp)).2) hc' (padded_self v')
              have hinf' : v' ++ q' <:+: v ++ q :=
                y3.isInfix.trans (hinf.trans (List.prefix_append v q).isInfix)
              obtain ⟨val, p, w, z1, z2, z3⟩ := ih hp.tail hv' hc' (by simp) hn' L' q' y1
                (fun h => hb (hinf'.subset h)) (fun x hx => once_infix (hone x (List.mem_cons_of_mem _ hx)) hinf')
              exact ⟨w, by rw [y2, z1]; exact z2, z3⟩
            · have := noCont_scalar hv' hc' []
              rw [List.append_nil] at this
              exact get_noCont hp.tail (by simp) this
          obtain ⟨w, y1, y2⟩ := hget
          refine ⟨_, _, addIndex e.index w, rfl, ?_, by rw [addIndex_exists]; exact y2⟩
          unfold finish
          simp only [Option.getD_some]
          rw [plain_more, if_neg (List.cons_ne_nil k' ks'), if_neg (by decide),
            getIn_slice (by rw [hj]; exact isValue_ne_nil hv'), hj]
          have e' : (plainPath k (c! '.') (dotPath (k' :: ks'))).extra = dotPath (k' :: ks') := rfl
          rw [e', y1]; rfl
      · rw [gArrVals_noindex _ hk hi]
        exact hdef []

theorem unresolved_get {v doc : Bytes} {ks : List Bytes} (hp : PlainComps ks) (hv : IsValue v) (hne : ks ≠ [])
    (hn : ¬ ∃ r, Resolves KeyIs v ks r) (hd : Padded v doc) (hb : c! '\\' ∉ doc)
    (hone : ∀ k ∈ ks, AtMostOnce (quoted k) doc) :
    ∃ w, get doc (dotPath ks) = .ok w ∧ w.exists = false := by
  by_cases hc : IsCont v
  · cases ks with
    | nil => exact absurd rfl hne
    | cons k ks =>
      obtain ⟨q, L, y1, _, y3, y2⟩ := get_of_cont (ks := ks) (hp k (by simp)).1 (.inl (hp k (by simp)).2) hc hd
      obtain ⟨val, p, w, z1, z2, z3⟩ := unresolved_search hp hv hc (by simp) hn L q y1 (fun h => hb (y3.subset h))
        (fun k hk => once_infix (hone k hk) y3.isInfix)
      exact ⟨w, by rw [y2, z1]; exact z2, z3⟩
  · obtain ⟨w1, w2, h1, h2, rfl⟩ := hd
    cases ks with
    | nil => exact absurd rfl hne
    | cons k ks =>
      rw [get_dot (hp k (by simp)).1 (.inl (hp k (by simp)).2), gStart_ws _ _ _ h1,
        gStart_noCont _ _ _ (noCont_scalar hv hc w2)]
      exact finish_default rfl hp.tail

end Gjson
