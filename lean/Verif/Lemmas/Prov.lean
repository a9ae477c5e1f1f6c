import Verif.Lemmas.Stable
import Verif.Lemmas.Same
/-
Where the results of `get` come from.
-/
namespace Gjson

/-- The values that `get` can return, by the place in the code that makes them. -/
inductive Prov : Value → Prop
  | default : Prov Value.default
  /-- a value met while scanning (`proc_value`) -/
  | tok (i : Nat) (s : Bytes) : Prov (tokVal i (leafTok s).1)
  /-- an array or object put together by `#`, `#(...)#` or a multipath -/
  | array (b : Bytes) : Prov (mkOwned (c! '[' :: b) none INFO_ARRAY)
  | object (b : Bytes) : Prov (mkOwned (c! '{' :: b) none INFO_OBJECT)
  /-- the length of an array -/
  | count (n : Nat) : Prov (mkOwned (natDec n) none INFO_NUMBER)
  /-- the result of a modifier, parsed -/
  | modifier (i : Nat) (s : Bytes) : Prov (pParse i s)
  | owned {v : Value} : Prov v → Prov (jsonIntoOwned v)
  | moved (i : Option Nat) {v : Value} : Prov v → Prov (addIndex i v)

theorem toks_prov (i : Nat) (s : Bytes) : ∀ v ∈ toks i s, Prov v := by
  generalize hn : s.length = n
  induction n using Nat.strongRecOn generalizing i s with
  | ind n ih =>
    cases s with
    | nil => simp [toks_nil]
    | cons c r =>
      intro v hv
      by_cases c1 : c ≤ c! ' ' ∨ c = c! ',' ∨ c = c! ':'
      · rw [toks_skip c1] at hv
        exact ih r.length (by simp at hn; omega) _ _ rfl v hv
      by_cases c2 : c = c! '}' ∨ c = c! ']'
      · rw [toks_close c2] at hv; simp at hv
      rw [toks_tok c1 c2] at hv
      split at hv
      · rcases List.mem_cons.1 hv with rfl | hv
        · exact .tok _ _
        · have := leafTok_lt (s := c :: r) (by simp)
          exact ih _ (by omega) _ _ rfl v hv
      · simp at hv

theorem eachToks_prov (i : Nat) (lines : Bool) (s : Bytes) : ∀ v ∈ eachToks i lines s, Prov v := by
  unfold eachToks; split <;> exact toks_prov _ _

theorem gArr_prov {rec : GetFn} {L : Nat} {lines : Bool} {path : Path} {s : Bytes} {x : Value × Path}
    (h : gArr rec L lines path s = .ok x) : Prov x.1 := by
  unfold gArr at h
  have hp := eachToks_prov (L - s.length) lines s
  revert h hp
  generalize eachToks (L - s.length) lines s = vals
  intro h hp
  have hidx : ∀ k : Int, Prov (if k < 0 then Value.default else vals.getD k.toNat Value.default) := by
    intro k
    split
    · exact .default
    · rw [List.getD_eq_getElem?_getD]
      cases hk : vals[k.toNat]? with
      | none => exact .default
      | some v => exact hp v (List.mem_of_getElem? hk)
  unfold gArrVals at h
  simp only at h
  split at h
  · cases h; exact hidx _
  · split at h
    · split at h
      · split at h
        · obtain ⟨l, _, h2⟩ := bind_eq_ok.1 h
          cases h2; exact .array _
        · cases h; exact .count _
      · split at h
        · obtain ⟨l, _, h2⟩ := bind_eq_ok.1 h
          cases h2; exact .array _
        · obtain ⟨l, h1, h2⟩ := bind_eq_ok.1 h
          cases h2
          rcases findR_exists h1 with h3 | h3
          · exact hp _ h3
          · rw [h3]; exact .default
    · cases h; exact hidx _

theorem gObj_prov {rec : GetFn} {L : Nat} : ∀ (k : Nat) {path : Path}, pathRank path < k →
    ∀ {s : Bytes} {x : Value × Path}, gObj rec L path s = .ok x → Prov x.1
  | 0, _, h, _, _, _ => by omega
  | k + 1, path, hk, s, x, h => by
    rw [gObj.eq_def] at h
    cases s with
    | nil => cases h; exact .default
    | cons c r =>
      simp only at h
      split at h
      · cases h; exact .default
      · refine gObjLoop_ind (P := fun x => Prov x.1) .default (fun _ _ _ => .tok _ _) (fun _ _ _ _ => .tok _ _) ?_ r x h
        intro v y hy hd
        rw [dif_pos hd] at hy
        have := pathRank_next hd
        split at hy
        · exact gObj_prov k (by omega) hy
        · exact gArr_prov hy

theorem gStart_prov {rec : GetFn} {L : Nat} {path : Path} : ∀ {s : Bytes} {x : Value × Path},
    gStart rec L path s = .ok x → Prov x.1
  | [], x, h => by cases h; exact .default
  | c :: r, x, h => by
    unfold gStart at h
    split at h
    · exact gStart_prov h
    split at h
    · exact gObj_prov _ (Nat.lt_succ_self _) h
    split at h
    · exact gArr_prov h
    · cases h; exact .default

theorem modExec_prov {rec : GetFn} {json : Bytes} {path : Path} {x : Value × Path}
    (h : modExec rec json path = .ok x) : Prov x.1 := by
  unfold modExec at h
  simp only at h
  split at h
  · simp only [bind_eq_ok] at h
    obtain ⟨_, _, _, _, _, _, u, h1, h2⟩ := h
    cases h2
    rw [parse_eq] at h1
    cases h1
    exact .owned (.modifier _ _)
  · simp only [bind_eq_ok] at h
    obtain ⟨_, _, _, _, _, _, _, _, u, h1, h2⟩ := h
    cases h2
    rw [parse_eq] at h1
    cases h1
    exact .owned (.modifier _ _)

theorem eachCompLoop_ind {σ : Type} {path : Bytes} {f : σ → Bytes → Bytes → Res σ} {P : σ → Prop}
    (hf : ∀ st k p st', P st → f st k p = .ok st' → P st') :
    ∀ (n i : Nat) (c : Option Nat) (s : Nat) (st st' : σ), P st →
      eachCompLoop path f n i c s st = .ok st' → P st'
  | 0, _, _, _, _, _, _, h => by simp [eachCompLoop, outOfFuel] at h
  | n + 1, i, c, s, st, st', hst, h => by
    unfold eachCompLoop at h
    split at h
    · obtain ⟨⟨k, p⟩, _, h2⟩ := bind_eq_ok.1 h
      exact hf _ _ _ _ hst h2
    · obtain ⟨ch, _, h⟩ := bind_eq_ok.1 h
      simp only at h
      split at h
      · split at h
        · cases h; exact hst
        · exact eachCompLoop_ind hf n _ _ _ _ _ hst h
      split at h
      · obtain ⟨⟨a, b⟩, _, h2⟩ := bind_eq_ok.1 h
        exact eachCompLoop_ind hf n _ _ _ _ _ hst h2
      split at h
      · obtain ⟨⟨k, p⟩, _, h2⟩ := bind_eq_ok.1 h
        obtain ⟨st1, h3, h4⟩ := bind_eq_ok.1 h2
        exact eachCompLoop_ind hf n _ _ _ _ _ (hf _ _ _ _ hst h3) h4
      split at h
      · exact eachCompLoop_ind hf n _ _ _ _ _ hst h
      · exact eachCompLoop_ind hf n _ _ _ _ _ hst h

theorem eachComp_ind {σ : Type} {path : Bytes} {f : σ → Bytes → Bytes → Res σ} {P : σ → Prop}
    (hf : ∀ st k p st', P st → f st k p = .ok st' → P st') {st st' : σ} (hst : P st)
    (h : eachComp path f st = .ok st') : P st' := by
  unfold eachComp at h
  split at h
  · simp [rpanic] at h
  · obtain ⟨p, _, h2⟩ := bind_eq_ok.1 h
    exact eachCompLoop_ind hf _ _ _ _ _ _ hst h2

theorem multiExec_prov {rec : GetFn} {json : Bytes} {path : Path} {x : Value × Path}
    (h : multiExec rec json path = .ok x) : Prov x.1 := by
  unfold multiExec at h
  obtain ⟨a, _, h⟩ := bind_eq_ok.1 h
  split at h
  · unfold execArr at h
    obtain ⟨b, _, h⟩ := bind_eq_ok.1 h
    split at h
    · cases h; exact .default
    · obtain ⟨⟨out, n⟩, h1, h2⟩ := bind_eq_ok.1 h
      have := eachComp_ind (P := fun st : Bytes × Nat => ∃ q, st.1 = c! '[' :: q) (by
        rintro st k p st' ⟨q, hq⟩ hf
        obtain ⟨res, _, hf⟩ := bind_eq_ok.1 hf
        cases hf
        unfold pushValue
        split
        · split <;> (simp only [hq, List.cons_append]; exact ⟨_, rfl⟩)
        · exact ⟨q, hq⟩) ⟨[], rfl⟩ h1
      obtain ⟨q, hq⟩ := this
      simp only at hq h2
      rw [jsonFromOwned_eq, hq] at h2
      cases h2
      exact .array _
  · unfold execObj at h
    obtain ⟨b, _, h⟩ := bind_eq_ok.1 h
    split at h
    · cases h; exact .default
    · obtain ⟨⟨out, n⟩, h1, h2⟩ := bind_eq_ok.1 h
      have := eachComp_ind (P := fun st : Bytes × Nat => ∃ q, st.1 = c! '{' :: q) (by
        rintro st k p st' ⟨q, hq⟩ hf
        obtain ⟨res, _, hf⟩ := bind_eq_ok.1 hf
        cases hf
        unfold pushMember
        split
        · split <;> (simp only [hq, List.cons_append]; exact ⟨_, rfl⟩)
        · exact ⟨q, hq⟩) ⟨[], rfl⟩ h1
      obtain ⟨q, hq⟩ := this
      simp only at hq h2
      rw [jsonFromOwned_eq, hq] at h2
      cases h2
      exact .object _

theorem getFirst_prov {rec : GetFn} {json path : Bytes} {x : Value × Path}
    (h : getFirst rec json path = .ok x) : Prov x.1 := by
  rw [getFirst_eq] at h
  simp only at h
  split at h
  · exact gArr_prov h
  split at h
  · exact modExec_prov h
  split at h
  · exact multiExec_prov h
  · exact gStart_prov h

theorem getIn_prov {rec : GetFn} {v w : Value} {path : Bytes} (hr : ∀ json w, rec json path = .ok w → Prov w)
    (h : getIn rec v path = .ok w) : Prov w := by
  unfold getIn at h
  split at h
  · obtain ⟨a, h1, h2⟩ := bind_eq_ok.1 h
    cases h2
    exact .moved _ (hr _ _ h1)
  · obtain ⟨a, h1, h2⟩ := bind_eq_ok.1 h
    cases h2
    exact .moved _ (.owned (hr _ _ h1))

/-- Every result of `get` has one of these origins. -/
theorem get_prov {path : Bytes} : ∀ {json : Bytes} {v : Value}, get json path = .ok v → Prov v := by
  generalize hn : path.length = n
  induction n using Nat.strongRecOn generalizing path with
  | ind n ih =>
    intro json v h
    rw [get_eq, getBody] at h
    obtain ⟨⟨res, p⟩, h1, h2⟩ := bind_eq_ok.1 h
    simp only at h2
    split at h2
    · cases h2; exact getFirst_prov h1
    · rename_i hm
      have hsep : p.sep ≠ 0 := by simpa [Path.more] using hm
      have := getFirst_rest h1 hsep
      simp only at this
      exact getIn_prov (fun json w hw => ih _ (by omega) rfl hw) h2

theorem valueGet_prov {v w : Value} {path : Bytes} (h : v.get path = .ok w) : Prov w := by
  exact getIn_prov (fun _ _ => get_prov) h

/-! ### What follows -/

/-- A value never has both a borrowed and an owned text. -/
def OneText (v : Value) : Prop := v.slice = [] ∨ v.owned = []

theorem mkVal_oneText (s : Bytes) (i : Option Nat) (info : UInt32) : OneText (mkVal s i info) := .inr (mkVal_owned _ _ _)
theorem mkOwned_oneText (s : Bytes) (i : Option Nat) (info : UInt32) : OneText (mkOwned s i info) := by
  left; unfold mkOwned; split <;> rfl

theorem tokVal_oneText (i : Nat) (t : Option (Bytes × UInt32)) : OneText (tokVal i t) := by
  cases t with
  | none => exact .inl rfl
  | some x => exact mkVal_oneText _ _ _

theorem pParse_oneText (s : Bytes) : ∀ i, OneText (pParse i s) := by
  induction s with
  | nil => intro i; exact .inl rfl
  | cons c r ih =>
    intro i
    unfold pParse
    split
    · exact ih _
    split
    · exact mkVal_oneText _ _ _
    split
    · exact mkVal_oneText _ _ _
    split
    · exact tokVal_oneText _ _
    · exact .inl rfl

theorem Prov.oneText {v : Value} (h : Prov v) : OneText v := by
  induction h with
  | default => exact .inl rfl
  | tok i s => exact tokVal_oneText _ _
  | array b => exact mkOwned_oneText _ _ _
  | object b => exact mkOwned_oneText _ _ _
  | count n => exact mkOwned_oneText _ _ _
  | modifier i s => exact pParse_oneText _ _
  | owned _ _ => exact .inl rfl
  | moved i _ ih =>
    unfold addIndex
    split <;> exact ih

theorem jsonIntoOwned_json {v : Value} (h : OneText v) : (jsonIntoOwned v).json = v.json := by
  unfold jsonIntoOwned Value.json
  simp only
  rcases h with h | h <;> rw [h] <;> cases v.slice <;> cases v.owned <;> simp

theorem sameValue_addIndex (i : Option Nat) (v : Value) : SameValue (addIndex i v) v := by
  refine sameValue_of ?_ ?_ ?_ <;> unfold addIndex
  · split <;> rfl
  · split <;> rfl
  · intro _; split <;> exact ⟨rfl, fun _ => rfl⟩

theorem sameValue_owned {v : Value} (h : OneText v) : SameValue (jsonIntoOwned v) v := by
  exact sameValue_of (jsonIntoOwned_json h) rfl (fun _ => ⟨rfl, fun _ => rfl⟩)

/-- Two results of a computation that may fail cannot be told apart. -/
inductive SameRes : Res Value → Res Value → Prop
  | ok {a b : Value} : SameValue a b → SameRes (.ok a) (.ok b)
  | error (e : Fault) : SameRes (.error e) (.error e)

theorem SameRes.refl : ∀ a : Res Value, SameRes a a
  | .ok a => .ok (.refl a)
  | .error e => .error e

theorem SameRes.trans {a b c : Res Value} (h : SameRes a b) (g : SameRes b c) : SameRes a c := by
  cases h with
  | ok h => cases g with
    | ok g => exact .ok (h.trans g)
  | error e => exact g

theorem SameRes.symm {a b : Res Value} (h : SameRes a b) : SameRes b a := by
  cases h with
  | ok h => exact .ok h.symm
  | error e => exact .error e

/-- Searching a value is searching its text. -/
theorem getIn_same {v : Value} (hv : OneText v) (path : Bytes) : SameRes (getIn get v path) (get v.json path) := by
  unfold getIn
  split
  · rename_i h
    have : v.json = v.slice := by
      rcases hv with h1 | h1
      · rw [h1] at h; simp at h
      · unfold Value.json; rw [h1]; simp
    rw [this]
    cases hg : get v.slice path with
    | error e => exact .error e
    | ok w => exact .ok (sameValue_addIndex _ _)
  · rename_i h
    have h0 : v.slice = [] := by simpa using h
    have : v.json = v.owned := by
      unfold Value.json; rw [h0]; cases v.owned <;> simp
    rw [this]
    cases hg : get v.owned path with
    | error e => exact .error e
    | ok w => exact .ok ((sameValue_addIndex _ _).trans (sameValue_owned (get_prov hg).oneText))

end Gjson
