import Verif.Lemmas.OwnText
/-
A value that does not exist is of kind null or string.
-/
namespace Gjson
open Spec

/-- If the value does not exist, it is of kind null or string. -/
def Void (v : Value) : Prop := v.json = [] → v.kind = .null ∨ v.kind = .string

theorem void_default : Void Value.default := fun _ => .inl rfl
theorem void_exists {v : Value} (h : v.exists = true) : Void v := fun hn => absurd hn (exists_json.1 h)

theorem Void.same {a b : Value} (h : SameValue a b) (hb : Void b) : Void a := by
  intro hn
  rw [h.kind]
  exact hb (by rw [← h.json]; exact hn)

theorem eachToks_void (i : Nat) (lines : Bool) (s : Bytes) : ∀ v ∈ eachToks i lines s, Void v := by
  intro v hv
  unfold eachToks at hv
  split at hv <;> exact void_exists (toks_exist _ _ v hv).1

theorem gArr_void {rec : GetFn} {L : Nat} {lines : Bool} {path : Path} {s : Bytes} {x : Value × Path}
    (h : gArr rec L lines path s = .ok x) : Void x.1 := by
  unfold gArr at h
  have hp := eachToks_void (L - s.length) lines s
  revert h hp
  generalize eachToks (L - s.length) lines s = vals
  intro h hp
  have hidx : ∀ k : Int, Void (if k < 0 then Value.default else vals.getD k.toNat Value.default) := by
    intro k
    split
    · exact void_default
    · rw [List.getD_eq_getElem?_getD]
      cases hk : vals[k.toNat]? with
      | none => exact void_default
      | some v => exact hp v (List.mem_of_getElem? hk)
  have harr : ∀ b, Void (mkOwned (c! '[' :: b) none INFO_ARRAY) := fun b => void_exists (by rw [mkOwned_exists]; simp)
  have hcnt : ∀ n, Void (mkOwned (natDec n) none INFO_NUMBER) := fun n => void_exists (by rw [mkOwned_exists, natDec_eq]; simpa using (numeral_spec n).1)
  unfold gArrVals at h
  simp only at h
  split at h
  · cases h; exact hidx _
  · split at h
    · split at h
      · split at h
        · obtain ⟨l, _, h2⟩ := bind_eq_ok.1 h
          cases h2; exact harr _
        · cases h; exact hcnt _
      · split at h
        · obtain ⟨l, _, h2⟩ := bind_eq_ok.1 h
          cases h2; exact harr _
        · obtain ⟨l, h1, h2⟩ := bind_eq_ok.1 h
          cases h2
          rcases findR_exists h1 with h3 | h3
          · exact hp _ h3
          · rw [h3]; exact void_default
    · cases h; exact hidx _

theorem gObj_void {rec : GetFn} {L : Nat} : ∀ (k : Nat) {path : Path}, pathRank path < k →
    ∀ {s : Bytes} {x : Value × Path}, gObj rec L path s = .ok x → Void x.1
  | 0, _, h, _, _, _ => by omega
  | k + 1, path, hk, s, x, h => by
    rw [gObj.eq_def] at h
    cases s with
    | nil => cases h; exact void_default
    | cons c r =>
      simp only at h
      split at h
      · cases h; exact void_default
      · refine gObjLoop_ind' (P := fun x => Void x.1) void_default (fun _ _ he => void_exists he) ?_ r x h
        intro v y hy hd
        rw [dif_pos hd] at hy
        have := pathRank_next hd
        split at hy
        · exact gObj_void k (by omega) hy
        · exact gArr_void hy

theorem gStart_void {rec : GetFn} {L : Nat} {path : Path} : ∀ {s : Bytes} {x : Value × Path},
    gStart rec L path s = .ok x → Void x.1
  | [], x, h => by cases h; exact void_default
  | c :: r, x, h => by
    unfold gStart at h
    split at h
    · exact gStart_void h
    split at h
    · exact gObj_void _ (Nat.lt_succ_self _) h
    split at h
    · exact gArr_void h
    · cases h; exact void_default

theorem tok_void {c : UInt8} {r : Bytes} (h1 : c ≠ c! '{') (h2 : c ≠ c! '[') (i : Nat) : Void (tokVal i (leafTok (c :: r)).1) := by
  rw [leafTok.eq_def]
  simp only
  split
  · cases hq : qStr r with
    | none => intro _; right; simp only [tokVal, mkVal_kind]; decide
    | some x => obtain ⟨b, f, q⟩ := x; exact void_exists (by simp [tokVal])
  split
  · rename_i h; exact absurd h (by simp [h1, h2])
  split
  · exact void_exists (by simp [tokVal])
  split
  · split
    · exact void_default
    · exact void_exists (by simp [tokVal])
  split
  · split
    · exact void_default
    · exact void_exists (by simp [tokVal])
  split
  · split
    · exact void_default
    · exact void_exists (by simp [tokVal])
  · exact void_default

theorem pParse_void : ∀ (s : Bytes) (i : Nat), Void (pParse i s)
  | [], _ => void_default
  | c :: r, i => by
    unfold pParse
    split
    · exact pParse_void _ _
    split
    · exact void_exists (by simp)
    split
    · exact void_exists (by simp)
    split
    · exact tok_void (by assumption) (by assumption) _
    · exact void_default

theorem void_owned {v : Value} (h : OneText v) (hv : Void v) : Void (jsonIntoOwned v) := Void.same (sameValue_owned h) hv
theorem void_moved (i : Option Nat) {v : Value} (hv : Void v) : Void (addIndex i v) := Void.same (sameValue_addIndex _ _) hv

theorem modExec_void {rec : GetFn} {json : Bytes} {path : Path} {x : Value × Path}
    (h : modExec rec json path = .ok x) : Void x.1 := by
  unfold modExec at h
  simp only at h
  split at h
  · simp only [bind_eq_ok] at h
    obtain ⟨_, _, _, _, _, _, u, h1, h2⟩ := h
    cases h2
    rw [parse_eq] at h1
    cases h1
    exact void_owned (pParse_oneText _ _) (pParse_void _ _)
  · simp only [bind_eq_ok] at h
    obtain ⟨_, _, _, _, _, _, _, _, u, h1, h2⟩ := h
    cases h2
    rw [parse_eq] at h1
    cases h1
    exact void_owned (pParse_oneText _ _) (pParse_void _ _)

theorem multiExec_void {rec : GetFn} {json : Bytes} {path : Path} {x : Value × Path}
    (h : multiExec rec json path = .ok x) : Void x.1 := by
  unfold multiExec at h
  obtain ⟨a, _, h⟩ := bind_eq_ok.1 h
  split at h
  · unfold execArr at h
    obtain ⟨b, _, h⟩ := bind_eq_ok.1 h
    split at h
    · cases h; exact void_default
    · obtain ⟨⟨out, n⟩, h1, h2⟩ := bind_eq_ok.1 h
      simp only at h2
      rw [jsonFromOwned_eq] at h2
      cases h2
      exact void_exists (by rw [mkOwned_exists]; simp)
  · unfold execObj at h
    obtain ⟨b, _, h⟩ := bind_eq_ok.1 h
    split at h
    · cases h; exact void_default
    · obtain ⟨⟨out, n⟩, h1, h2⟩ := bind_eq_ok.1 h
      simp only at h2
      rw [jsonFromOwned_eq] at h2
      cases h2
      exact void_exists (by rw [mkOwned_exists]; simp)

theorem getFirst_void {rec : GetFn} {json path : Bytes} {x : Value × Path}
    (h : getFirst rec json path = .ok x) : Void x.1 := by
  rw [getFirst_eq] at h
  simp only at h
  split at h
  · exact gArr_void h
  split at h
  · exact modExec_void h
  split at h
  · exact multiExec_void h
  · exact gStart_void h

theorem getIn_void {v w : Value} {path : Bytes} (hr : ∀ json w, get json path = .ok w → Void w)
    (h : getIn get v path = .ok w) : Void w := by
  unfold getIn at h
  split at h
  · obtain ⟨a, h1, h2⟩ := bind_eq_ok.1 h
    cases h2
    exact void_moved _ (hr _ _ h1)
  · obtain ⟨a, h1, h2⟩ := bind_eq_ok.1 h
    cases h2
    exact void_moved _ (void_owned (get_prov h1).oneText (hr _ _ h1))

theorem get_void {path : Bytes} : ∀ {json : Bytes} {v : Value}, get json path = .ok v → Void v := by
  generalize hn : path.length = n
  induction n using Nat.strongRecOn generalizing path with
  | ind n ih =>
    intro json v h
    rw [get_eq, getBody] at h
    obtain ⟨⟨res, p⟩, h1, h2⟩ := bind_eq_ok.1 h
    simp only at h2
    split at h2
    · cases h2; exact getFirst_void h1
    · rename_i hm
      have hsep : p.sep ≠ 0 := by simpa [Path.more] using hm
      have := getFirst_rest h1 hsep
      simp only at this
      exact getIn_void (fun json w hw => ih _ (by omega) rfl hw) h2

theorem Handed.void {v : Value} (h : Handed v) : Void v := by
  have hempty : ∀ {v : Value}, v.json = [] → v.exists = false := by intro v hj; unfold Value.exists; rw [hj]; rfl
  induction h with
  | parse h => rw [parse_eq] at h; cases h; exact pParse_void _ _
  | get h => exact get_void h
  | value _ h ih => exact getIn_void (fun _ _ => get_void) h
  | @element v e vals hv h he ih =>
    by_cases hk : v.kind = .array
    · cases hj : v.json with
      | nil =>
        unfold Value.array Value.each at h
        rw [if_pos hk, hempty hj] at h
        simp at h; subst h; simp at he
      | cons c q =>
        rw [array_eq hj hk] at h
        cases h
        exact void_exists (toks_exist _ _ _ he).1
    · unfold Value.array at h
      rw [if_neg hk] at h; cases h; simp at he
  | @key v k e l hv h he ih => exact (each_void ih h he).1
  | @entry v k e l hv h he ih => exact (each_void ih h he).2
where
  each_void {v k e : Value} {l : List (Value × Value)} (hv : Void v) (h : v.each (fun acc k x => .ok (acc ++ [(k, x)], true)) [] = .ok l)
      (he : (k, e) ∈ l) : Void k ∧ Void e := by
    cases hj : v.json with
    | nil =>
      have : v.exists = false := by unfold Value.exists; rw [hj]; rfl
      unfold Value.each at h
      rw [this] at h
      simp at h; subst h; simp at he
    | cons c q =>
      by_cases hk : v.kind = .object ∨ v.kind = .array
      · rw [each_eq hj hk, visit_collect_pairs] at h
        cases h
        rw [List.nil_append] at he
        unfold eachPairs at he
        split at he
        · have := pairUp_both _ he
          exact ⟨void_exists (toks_exist _ _ _ this.1).1, void_exists (toks_exist _ _ _ this.2).1⟩
        · obtain ⟨x, hx, hxe⟩ := List.mem_map.1 he
          cases hxe
          exact ⟨void_default, void_exists (toks_exist _ _ _ hx).1⟩
      · unfold Value.each at h
        rw [if_neg (by rw [show v.exists = true from exists_json.2 (by rw [hj]; simp)]; simp), if_pos (by grind)] at h
        cases h
        simp at he
        obtain ⟨rfl, rfl⟩ := he
        exact ⟨void_default, Void.same (sameValue_clone v) hv⟩

theorem Handed.array_exists {v : Value} (h : Handed v) (hk : v.kind = .array) : v.exists = true := by
  refine exists_json.2 fun hn => ?_
  rcases h.void hn with h | h <;> rw [hk] at h <;> cases h

end Gjson
