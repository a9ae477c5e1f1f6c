import Verif.Lemmas.PrettyAll
import Verif.SpecLayout
/-
The exact text written by `pretty` on JSON texts.
-/
namespace Gjson
open Spec

/-! ### One line -/

/-- The further elements of an array on one line. -/
def lineRest : List Doc → Option Bytes
  | [] => some []
  | d :: r => d.line.bind fun p => (lineRest r).map fun q => b!", " ++ (p ++ q)

theorem lineElems_cons (d : Doc) : ∀ ds, lineElems (d :: ds) = d.line.bind fun p => (lineRest ds).map fun q => p ++ q
  | [] => by simp [lineElems, lineRest]
  | e :: ds => by
    rw [lineElems, lineElems_cons e ds, lineRest]
    cases d.line <;> cases e.line <;> cases lineRest ds <;> simp

/-- What printing on one line gives. -/
def OnLine (json : Bytes) (buf : Bytes) (p : Option Bytes) (r : Bytes) (res : Bytes × Nat × Int × Bool) : Prop :=
  match p with
  | some p => res.1 = buf ++ p ∧ At json res.2.1 r ∧ res.2.2.2 = true
  | none => res.2.2.2 = false

/-- `extend_pretty_any` prints values on one line. -/
def AnyLines (json : Bytes) (any : PrettyFn) : Prop :=
  ∀ a tabs max depth buf i nl g v r d res, a.pretty = false → a.width > 0 → max ≠ -1 → depth + d.height < MAX_DEPTH →
    (∀ c ∈ g, c ≤ c! ' ' ∨ c = c! ',' ∨ c = c! ':') → Denotes v d → Follow r → At json i (g ++ (v ++ r)) →
    any a tabs max depth buf i nl = .ok res → OnLine json buf d.line r res

theorem gap_ws {w : Bytes} (hw : Ws w) : ∀ c ∈ w, c ≤ c! ' ' ∨ c = c! ',' ∨ c = c! ':' := by
  intro c hc; have := hw c hc; unfold IsWs at this; left; grind

theorem gap_comma {w : Bytes} (hw : Ws w) : ∀ c ∈ c! ',' :: w, c ≤ c! ' ' ∨ c = c! ',' ∨ c = c! ':' := by
  intro c hc
  rcases List.mem_cons.1 hc with rfl | hc
  · simp
  · exact gap_ws hw c hc

theorem gap_colon {w1 w2 : Bytes} (hw1 : Ws w1) (hw2 : Ws w2) : ∀ c ∈ w1 ++ c! ':' :: w2, c ≤ c! ' ' ∨ c = c! ',' ∨ c = c! ':' := by
  intro c hc
  rcases List.mem_append.1 hc with hc | hc
  · exact gap_ws hw1 c hc
  · rcases List.mem_cons.1 hc with rfl | hc
    · simp
    · exact gap_ws hw2 c hc

/-- The element of an array on one line. -/
theorem lineItem {any : PrettyFn} {json : Bytes} {a : PArgs} {tabs max : Int} {depth : Nat} {nl : Int} {buf : Bytes}
    {pairs : List Pair} {n fuel i : Nat} {res} {c : UInt8} {s : Bytes} (hp : a.pretty = false) (hw : a.width > 0) (hA : At json i (c :: s))
    (h1 : ¬ c ≤ c! ' ') (h2 : c ≠ c! ']')
    (h : prettyObjLoop any json (c! '[') (c! ']') a tabs max depth fuel i nl buf pairs n = .ok res) :
    ∃ r3 fuel', any a (tabs + 1) max depth (buf ++ if n > 0 then b!", " else []) i nl = .ok r3 ∧
      ((max ≠ -1 ∧ r3.2.2.2 = false ∧ res.2.2.2 = false) ∨
       ((max = -1 ∨ r3.2.2.2 = true) ∧
        prettyObjLoop any json (c! '[') (c! ']') a tabs max depth fuel' r3.2.1 r3.2.2.1 r3.1 pairs (n + 1) = .ok res)) := by
  obtain ⟨nl1, b1, b2, i2, nl2, kend, b3, i3, nl3, ok3, fuel2, e1, e2, e3, h3⟩ := objLoop_item hA h1 h2 (.inl rfl) h
  unfold prettyLine at e1
  rw [if_neg (by simp [hp])] at e1
  cases e1
  unfold prettyKey prettyIndent at e2
  rw [if_neg (by decide), if_neg (by simp [hp])] at e2
  cases e2
  have hsep : prettySep (c! '[') a buf n = buf ++ if n > 0 then b!", " else [] := by
    unfold prettySep
    split
    · rw [if_pos ⟨by omega, rfl⟩]; simp
    · simp
  rw [hsep] at e3
  refine ⟨_, fuel2, e3, ?_⟩
  rcases h3 with ⟨hm, hok, rfl⟩ | ⟨hm, h3⟩
  · exact .inl ⟨hm, hok, rfl⟩
  · refine .inr ⟨hm, ?_⟩
    unfold prettyPairs at h3
    rw [if_neg (by simp [hp])] at h3
    exact h3

theorem lineClose {json : Bytes} {a : PArgs} {tabs : Int} {i : Nat} {nl : Int} {buf : Bytes} {pairs : List Pair} {n : Nat} {res}
    (hp : a.pretty = false) (h : prettyClose json (c! '[') (c! ']') a tabs i nl buf pairs n = .ok res) :
    res = (buf ++ [c! ']'], i + 1, nl, true) := by
  unfold prettyClose at h
  rw [if_neg (by simp [hp])] at h
  cases h; rfl

theorem arrLine {json : Bytes} {any : PrettyFn} (hany : AnyLines json any) {a : PArgs} {tabs max : Int} {depth : Nat} {r : Bytes}
    (hp : a.pretty = false) (hw : a.width > 0) (hm : max ≠ -1) {ds : List Doc} {s : Bytes} (hs : RestA r ds s) :
    ∀ {fuel i : Nat} {nl : Int} {buf : Bytes} {pairs : List Pair} {n : Nat} {res : Bytes × Nat × Int × Bool},
    (∀ d ∈ ds, depth + d.height < MAX_DEPTH) → At json i s → 0 < n →
    prettyObjLoop any json (c! '[') (c! ']') a tabs max depth fuel i nl buf pairs n = .ok res →
    OnLine json buf ((lineRest ds).map fun p => p ++ [c! ']']) r res := by
  induction hs with
  | @nil w hws =>
    intro fuel i nl buf pairs n res _ hA _ h
    obtain ⟨fuel', i', hA', h'⟩ := objLoop_ws hws hA h
    have := lineClose hp (objLoop_close (by decide) hA' h')
    subst this
    exact ⟨by simp, hA'.cons, rfl⟩
  | @cons w w' v s d ds hws hws' hv hs ih =>
    intro fuel i nl buf pairs n res hlim hA hn h
    obtain ⟨fuel', i', hA', h'⟩ := objLoop_ws hws hA h
    obtain ⟨r3, fuel2, e3, h3⟩ := lineItem hp hw hA' (by decide) (by decide) h'
    have hl := hany a (tabs + 1) max depth _ i' nl (c! ',' :: w') v s d r3 hp hw hm (hlim d (by simp)) (gap_comma hws') hv hs.follow hA' e3
    unfold OnLine at hl
    rw [lineRest]
    cases hd : d.line with
    | none =>
      rw [hd] at hl
      simp only at hl
      rcases h3 with ⟨_, _, h3⟩ | ⟨h3, _⟩
      · simpa [OnLine] using h3
      · rcases h3 with h3 | h3
        · exact absurd h3 hm
        · rw [hl] at h3; cases h3
    | some p =>
      rw [hd] at hl
      obtain ⟨h4, h5, h6⟩ := hl
      rcases h3 with ⟨_, h3, _⟩ | ⟨_, h3⟩
      · rw [h6] at h3; cases h3
      · have := ih (fun d hd => hlim d (by simp [hd])) h5 (Nat.succ_pos n) h3
        rw [h4, if_pos hn] at this
        unfold OnLine at this ⊢
        cases hr : lineRest ds with
        | none => rw [hr] at this; simpa using this
        | some q => rw [hr] at this; simpa using this

theorem arrLineBody {json : Bytes} {any : PrettyFn} (hany : AnyLines json any) {a : PArgs} {tabs max : Int} {depth : Nat} {v r buf : Bytes}
    {ds : List Doc} (hp : a.pretty = false) (hw : a.width > 0) (hm : max ≠ -1) (hv : Denotes v (.arr ds)) {i fuel : Nat} {nl : Int} {res}
    (hlim : ∀ d ∈ ds, depth + d.height < MAX_DEPTH) (hA : At json i (v ++ r))
    (h : prettyObjLoop any json (c! '[') (c! ']') a tabs max depth fuel (i + 1) nl (buf ++ [c! '[']) [] 0 = .ok res) :
    OnLine json buf (Doc.arr ds).line r res := by
  cases hv with
  | @arrEmpty w hws =>
    have hA' := hA.cons
    simp only [List.append_eq, List.append_assoc, List.cons_append, List.nil_append] at hA'
    obtain ⟨fuel', i', hA1, h1⟩ := objLoop_ws hws hA' h
    have := lineClose hp (objLoop_close (by decide) hA1 h1)
    subst this
    exact ⟨by simp, hA1.cons, rfl⟩
  | @arr es hne hwf hd =>
    cases es with
    | nil => exact absurd rfl hne
    | cons e es =>
      obtain ⟨s, hs, hs'⟩ := restA_of_elems (r := r) hwf hd
      have hA' := hA.cons
      simp only [List.append_eq, List.append_assoc, List.cons_append, List.nil_append] at hA'
      rw [hs'] at hA'
      obtain ⟨fuel', i', hA1, h1⟩ := objLoop_ws (hwf e (by simp)).1 hA' h
      have hv := hd e (by simp)
      obtain ⟨c, q, hcq, hsv⟩ := Gjson.IsValue.cons (value_of_denotes hv)
      have hA2 := hA1
      rw [hcq] at hA2
      obtain ⟨r3, fuel2, e3, h3⟩ := lineItem hp hw hA2 (by unfold StartsValue IsDigit at hsv; grind) (by unfold StartsValue IsDigit at hsv; grind) h1
      have hl := hany a (tabs + 1) max depth _ i' nl [] e.1.val s e.2 r3 hp hw hm (hlim e.2 (by simp)) (by simp) hv hs.follow hA1 e3
      unfold OnLine at hl
      simp only [List.map_cons, Doc.line]
      rw [lineElems_cons]
      cases hd : e.2.line with
      | none =>
        rw [hd] at hl
        simp only at hl
        rcases h3 with ⟨_, _, h3⟩ | ⟨h3, _⟩
        · simpa [OnLine] using h3
        · rcases h3 with h3 | h3
          · exact absurd h3 hm
          · rw [hl] at h3; cases h3
      | some p =>
        rw [hd] at hl
        obtain ⟨h4, h5, h6⟩ := hl
        rcases h3 with ⟨_, h3, _⟩ | ⟨_, h3⟩
        · rw [h6] at h3; cases h3
        · have := arrLine hany hp hw hm hs (fun d hd => hlim d (by simp at hd ⊢; exact .inr hd)) h5 (Nat.succ_pos 0) h3
          rw [h4, if_neg (by decide)] at this
          unfold OnLine at this ⊢
          cases hr : lineRest (es.map Prod.snd) with
          | none => rw [hr] at this; simpa using this
          | some q => rw [hr] at this; simpa using this

/-- The single values: their text is copied. -/
theorem anyLoop_leaf {json : Bytes} {any : PrettyFn} {a : PArgs} {tabs max : Int} {depth : Nat} {buf : Bytes} {nl : Int} {v r : Bytes}
    (hval : IsValue v) (h1 : kindOf v ≠ .object) (h2 : kindOf v ≠ .array) (hr : Follow r) {n i : Nat} {res} (hA : At json i (v ++ r))
    (h : prettyAnyLoop any json a tabs max depth buf nl n i = .ok res) : res = (buf ++ v, i + v.length, nl, true) := by
  cases n with
  | zero => simp [prettyAnyLoop, outOfFuel] at h
  | succ n =>
    unfold prettyAnyLoop at h
    cases hval with
    | null => rw [if_pos (At.lt hA), At.idx hA] at h; simp at h; exact h.symm
    | true => rw [if_pos (At.lt hA), At.idx hA] at h; simp at h; exact h.symm
    | false => rw [if_pos (At.lt hA), At.idx hA] at h; simp at h; exact h.symm
    | str hs =>
      obtain ⟨body, hb, rfl⟩ := hs
      have hA1 : At json i (c! '"' :: (body ++ c! '"' :: r)) := by simpa using hA
      rw [if_pos (At.lt hA1), At.idx hA1] at h
      simp only [ok_bind] at h
      rw [if_neg (by decide), if_pos trivial, prettyString_eq buf nl hA1, ← strSplit_eq, strSplit_body hb] at h
      cases h
      simp; omega
    | num hn =>
      have hch := numLit_numCh hn
      obtain ⟨c, q, rfl, hcd⟩ := NumLit.cons hn
      rw [if_pos (At.lt hA), At.idx hA] at h
      simp only [ok_bind] at h
      rw [if_neg (by unfold IsDigit at hcd; grind), if_neg (by unfold IsDigit at hcd; grind), if_pos (by unfold IsDigit at hcd; grind)] at h
      unfold prettyNumber at h
      rw [prettyNumberEnd_at hr (t := q) (fun x hx => hch x (by simp [hx])) (At.cons hA) (by have := At.len hA; simp at this; omega)] at h
      simp only [ok_bind] at h
      rw [At.slice' hA (by simp; omega)] at h
      cases h
      simp; omega
    | arrEmpty _ => exact absurd rfl h2
    | arr _ _ _ => exact absurd rfl h2
    | objEmpty _ => exact absurd rfl h1
    | obj _ _ _ => exact absurd rfl h1

/-- Bytes before a value are skipped. -/
theorem anyLoop_gap {json : Bytes} {any : PrettyFn} {a : PArgs} {tabs max : Int} {depth : Nat} {buf : Bytes} {nl : Int} {s : Bytes} {res} :
    ∀ {n i : Nat} {g : Bytes}, (∀ c ∈ g, c ≤ c! ' ' ∨ c = c! ',' ∨ c = c! ':') → At json i (g ++ s) →
    prettyAnyLoop any json a tabs max depth buf nl n i = .ok res →
    ∃ n' i', At json i' s ∧ prettyAnyLoop any json a tabs max depth buf nl n' i' = .ok res
  | n, i, [], _, hA, h => ⟨n, i, hA, h⟩
  | 0, _, _ :: _, _, _, h => by simp [prettyAnyLoop, outOfFuel] at h
  | n + 1, i, c :: g, hg, hA, h => by
    unfold prettyAnyLoop at h
    rw [if_pos (At.lt hA), At.idx hA] at h
    simp only [ok_bind] at h
    have hrec := fun hh => anyLoop_gap (any := any) (a := a) (tabs := tabs) (max := max) (depth := depth) (buf := buf) (nl := nl) (res := res) (n := n) (i := i + 1) (g := g) (fun x hx => hg x (by simp [hx])) (At.cons hA) hh
    rcases hg c (by simp) with hc | rfl | rfl
    · rw [if_pos hc] at h; exact hrec h
    · simp at h; exact hrec h
    · simp at h; exact hrec h

/-- Arrays and objects are printed by `extend_pretty_object`. -/
theorem anyLoop_cont {json : Bytes} {any : PrettyFn} {a : PArgs} {tabs max : Int} {depth : Nat} {buf : Bytes} {nl : Int} {v r : Bytes} {d : Doc}
    (hv : Denotes v d) {n i : Nat} {res} (hA : At json i (v ++ r)) (h : prettyAnyLoop any json a tabs max depth buf nl n i = .ok res) :
    match d with
    | .leaf t => v = t ∧ IsValue v ∧ kindOf v ≠ .object ∧ kindOf v ≠ .array
    | .arr _ => prettyObj any json 2 (c! '[') (c! ']') a tabs max (depth + 1) buf i nl = .ok res
    | .obj _ => prettyObj any json 2 (c! '{') (c! '}') a tabs max (depth + 1) buf i nl = .ok res := by
  cases n with
  | zero => simp [prettyAnyLoop, outOfFuel] at h
  | succ n =>
    unfold prettyAnyLoop at h
    cases hv with
    | leaf hval h1 h2 => exact ⟨rfl, hval, h1, h2⟩
    | arrEmpty hw => rw [if_pos (At.lt hA), At.idx hA] at h; simp only [ok_bind] at h; simpa using h
    | arr hne hw hd => rw [if_pos (At.lt hA), At.idx hA] at h; simp only [ok_bind] at h; simpa using h
    | objEmpty hw => rw [if_pos (At.lt hA), At.idx hA] at h; simp only [ok_bind] at h; simpa using h
    | obj hne hw hd => rw [if_pos (At.lt hA), At.idx hA] at h; simp only [ok_bind] at h; simpa using h

theorem prettyObj_line {json : Bytes} {any : PrettyFn} (hany : AnyLines json any) {v r : Bytes} {ds : List Doc} (hv : Denotes v (.arr ds))
    {i : Nat} (hA : At json i (v ++ r)) {depth : Nat} {buf : Bytes} {k : Nat} {a : PArgs} {tabs max : Int} {nl : Int} {res}
    (hp : a.pretty = false) (hw : a.width > 0) (hm : max ≠ -1) (hd : depth + elemHeight ds < MAX_DEPTH)
    (h : prettyObj any json k (c! '[') (c! ']') a tabs max depth buf i nl = .ok res) : OnLine json buf (Doc.arr ds).line r res := by
  cases k with
  | zero => simp [prettyObj, outOfFuel] at h
  | succ k =>
    unfold prettyObj at h
    rw [if_neg (by omega)] at h
    simp only at h
    rw [if_pos hw, if_neg (by simp [hp]), if_neg (by simp)] at h
    exact arrLineBody hany hp hw hm hv (fun d hd => by have := elemHeight_le hd; omega) hA h

theorem prettyAny_lines (json : Bytes) : ∀ n, AnyLines json (prettyAny json n)
  | 0 => by
    intro a tabs max depth buf i nl g v r d res _ _ _ _ _ _ _ _ h
    simp [prettyAny, outOfFuel] at h
  | n + 1 => by
    intro a tabs max depth buf i nl g v r d res hp hw hm hd hg hv hr hA h
    unfold prettyAny at h
    obtain ⟨n', i', hA', h'⟩ := anyLoop_gap hg hA h
    have hc := anyLoop_cont hv hA' h'
    cases d with
    | leaf t =>
      obtain ⟨rfl, h1, h2, h3⟩ := hc
      have := anyLoop_leaf h1 h2 h3 hr hA' h'
      subst this
      exact ⟨rfl, hA'.append, rfl⟩
    | arr ds => exact prettyObj_line (prettyAny_lines json n) hv hA' hp hw hm (by simp only [Doc.height] at hd; omega) hc
    | obj ds =>
      simp only at hc
      unfold prettyObj at hc
      rw [if_neg (by simp only [Doc.height] at hd; omega)] at hc
      simp only at hc
      rw [if_pos hw, if_neg (by simp [hp]), if_pos ⟨hm, trivial⟩] at hc
      cases hc
      rfl

/-! ### Several lines -/

/-- The layout options. -/
def style (a : PArgs) : Style := ⟨a.width, a.pfx, a.indent⟩

theorem repeatBytes_copies (b : Bytes) : ∀ n, repeatBytes n b = copies b n
  | 0 => rfl
  | n + 1 => by rw [repeatBytes, copies, repeatBytes_copies b n]

theorem extendTabs_pad (a : PArgs) (buf : Bytes) (n : Nat) : extendTabs buf a.pfx a.indent n = buf ++ (style a).pad n := by
  unfold extendTabs Style.pad style
  rw [repeatBytes_copies]
  split
  · simp
  · rename_i h
    have : a.pfx = [] := List.length_eq_zero_iff.1 (by omega)
    simp [this]

theorem joinP_commaLines : ∀ l, joinP l = commaLines l
  | [] => rfl
  | [p] => rfl
  | p :: q :: r => by rw [joinP, commaLines, joinP_commaLines (q :: r)]; simp

mutual
theorem line_sort : ∀ d : Doc, d.sort.line = d.line
  | .leaf _ => by simp [Doc.sort]
  | .arr es => by simp only [Doc.sort, Doc.line]; rw [lineElems_sort es]
  | .obj _ => by simp [Doc.sort, Doc.line]
theorem lineElems_sort : ∀ ds : List Doc, lineElems (sortElems ds) = lineElems ds
  | [] => rfl
  | [d] => by simp only [sortElems, lineElems]; exact line_sort d
  | d :: e :: r => by
    have := lineElems_sort (e :: r)
    simp only [sortElems, lineElems] at this ⊢
    rw [this, line_sort d]
end

theorem line_norm (b : Bool) (d : Doc) : (norm b d).line = d.line := by
  cases b
  · rfl
  · exact line_sort d

/-- A text ending in another byte than a space. -/
def NoSpaceEnd (t : Bytes) : Prop := ∃ q c, t = q ++ [c] ∧ c ≠ c! ' '

theorem NoSpaceEnd.append {t : Bytes} (h : NoSpaceEnd t) (q : Bytes) : NoSpaceEnd (q ++ t) := by
  obtain ⟨p, c, rfl, hc⟩ := h
  exact ⟨q ++ p, c, by simp, hc⟩

theorem NoSpaceEnd.snoc (q : Bytes) {c : UInt8} (hc : c ≠ c! ' ') : NoSpaceEnd (q ++ [c]) := ⟨q, c, rfl, hc⟩

theorem NoSpaceEnd.lastByte {t : Bytes} (h : NoSpaceEnd t) : ∃ c, Gjson.lastByte t = .ok c ∧ c ≠ c! ' ' := by
  obtain ⟨p, c, rfl, hc⟩ := h
  exact ⟨c, lastByte_snoc p c, hc⟩

theorem leaf_end {v : Bytes} (hv : IsValue v) (h1 : kindOf v ≠ .object) (h2 : kindOf v ≠ .array) : NoSpaceEnd v := by
  rcases leaf_bytes hv h1 h2 with ⟨body, _, rfl⟩ | ⟨hne, h⟩
  · exact ⟨c! '"' :: body, c! '"', by simp, by decide⟩
  · obtain ⟨c, q, rfl, _⟩ := IsValue.cons hv
    refine ⟨(c :: q).dropLast, (c :: q).getLast (by simp), (List.dropLast_concat_getLast (by simp)).symm, ?_⟩
    have := (h _ (List.getLast_mem (l := c :: q) (by simp))).1
    intro he; rw [he] at this; revert this; decide

theorem block_end (s : Style) (n : Nat) (o c : UInt8) (hc : c ≠ c! ' ') (l : List Bytes) : NoSpaceEnd (s.block n o c l) := by
  cases l with
  | nil => exact ⟨[o], c, rfl, hc⟩
  | cons p r => exact ⟨o :: c! '\n' :: (commaLines ((p :: r).map fun p => s.pad (n + 1) ++ p) ++ c! '\n' :: s.pad n), c, by simp [Style.block], hc⟩

theorem layout_end {v : Bytes} {d : Doc} (hv : Denotes v d) (b : Bool) (s : Style) (n col : Nat) : NoSpaceEnd ((norm b d).layout s n col) := by
  have harr : ∀ ds, NoSpaceEnd ((Doc.arr ds).layout s n col) := by
    intro ds
    unfold Doc.layout
    cases hl : (Doc.arr ds).line with
    | none => exact block_end s n _ _ (by decide) _
    | some p =>
      simp only
      split
      · simp only [Doc.line] at hl
        obtain ⟨q, _, rfl⟩ := Option.map_eq_some_iff.1 hl
        exact ⟨c! '[' :: q, c! ']', by simp, by decide⟩
      · exact block_end s n _ _ (by decide) _
  have hobj : ∀ ds, NoSpaceEnd ((Doc.obj ds).layout s n col) := by
    intro ds
    unfold Doc.layout
    exact block_end s n _ _ (by decide) _
  cases d with
  | leaf t =>
    cases hv with
    | leaf h1 h2 h3 => rw [norm_leaf, Doc.layout]; exact leaf_end h1 h2 h3
  | arr ds => rw [norm_arr]; exact harr _
  | obj ds => rw [norm_obj]; exact hobj _

/-- `extend_pretty_any` lays out values. -/
def AnyLays (json : Bytes) (any : PrettyFn) : Prop :=
  ∀ a (n : Nat) depth buf i nl g v r d res (col : Nat), a.pretty = true → depth + d.height < MAX_DEPTH →
    (a.width > 0 → (buf.length : Int) - nl = col) → (∀ c ∈ g, c ≤ c! ' ' ∨ c = c! ',' ∨ c = c! ':') → Denotes v d → Follow r →
    At json i (g ++ (v ++ r)) → any a n (-1) depth buf i nl = .ok res →
    res.1 = buf ++ (norm a.sortKeys d).layout (style a) n col ∧ At json res.2.1 r

/-- The closing bracket. -/
theorem layClose {json : Bytes} {opn cls : UInt8} {a : PArgs} {n : Nat} {i : Nat} {nl : Int} {buf : Bytes} {pairs : List Pair} {k : Nat} {res}
    (hp : a.pretty = true) (hk : 0 < k) (ho : opn ≠ c! '\n') {b : Bytes} (hb : closeSort json opn a buf pairs = .ok b) (he : NoSpaceEnd b)
    (h : prettyClose json opn cls a n i nl buf pairs k = .ok res) :
    res.1 = b ++ c! '\n' :: ((style a).pad n ++ [cls]) ∧ res.2.1 = i + 1 := by
  obtain ⟨c, hc, hc'⟩ := he.lastByte
  unfold prettyClose at h
  rw [if_pos hp, hb] at h
  unfold closeLine at h
  simp only [ok_bind] at h
  rw [if_pos hk, hc] at h
  simp only [ok_bind] at h
  rw [if_pos hc', lastByte_snoc] at h
  simp only [ok_bind] at h
  rw [if_pos (fun e => ho e.symm), extendTabs_pad] at h
  cases h
  simp

theorem layClose_empty {json : Bytes} {opn cls : UInt8} {a : PArgs} {n : Nat} {i : Nat} {nl : Int} {buf : Bytes} {res}
    (hp : a.pretty = true) (h : prettyClose json opn cls a n i nl (buf ++ [opn]) [] 0 = .ok res) :
    res.1 = buf ++ [opn, cls] ∧ res.2.1 = i + 1 := by
  have hb : closeSort json opn a (buf ++ [opn]) [] = .ok (buf ++ [opn]) := by
    unfold closeSort; split <;> rfl
  unfold prettyClose at h
  rw [if_pos hp, hb] at h
  unfold closeLine at h
  simp only [ok_bind] at h
  rw [if_neg (by decide)] at h
  simp only [ok_bind] at h
  rw [lastByte_snoc] at h
  simp only [ok_bind] at h
  rw [if_neg (by simp)] at h
  cases h
  simp

/-- Separator, line break and indentation before an element or member. -/
theorem layLine {opn : UInt8} {a : PArgs} {nl nl1 : Int} {buf b1 : Bytes} {k n : Nat} (hp : a.pretty = true)
    (h0 : k = 0 → ∃ b0, buf = b0 ++ [opn]) (ho : opn ≠ c! ' ')
    (h : prettyLine a nl (prettySep opn a buf k) = .ok (nl1, b1)) :
    b1 = buf ++ (if k > 0 then b!",\n" else b!"\n") ∧ prettyIndent a n b1 = b1 ++ (style a).pad (n + 1) ∧
    (a.width > 0 → (b1.length : Int) - nl1 = if k > 0 ∧ opn = c! '[' then 0 else 1) := by
  have hi : prettyIndent a n b1 = b1 ++ (style a).pad (n + 1) := by
    unfold prettyIndent
    rw [if_pos hp]
    exact extendTabs_pad a b1 (n + 1)
  unfold prettyLine at h
  rw [if_pos hp] at h
  by_cases hk : k > 0
  · unfold prettySep at h
    rw [if_pos hk] at h
    by_cases hw : a.width ≠ -1 ∧ opn = c! '['
    · rw [if_pos hw, lastByte_snoc] at h
      simp only [ok_bind] at h
      rw [if_pos trivial, List.length_append, List.length_singleton, Nat.add_sub_cancel, List.take_left] at h
      cases h
      refine ⟨by simp [hk], hi, fun _ => ?_⟩
      rw [if_pos (c := k > 0 ∧ opn = c! '[') ⟨hk, hw.2⟩]
      simp; omega
    · rw [if_neg hw, lastByte_snoc] at h
      simp only [ok_bind] at h
      rw [if_neg (by decide)] at h
      cases h
      refine ⟨by simp [hk], hi, fun hw' => ?_⟩
      rw [if_neg (fun e => hw ⟨by omega, e.2⟩)]
      simp; omega
  · unfold prettySep at h
    rw [if_neg hk] at h
    obtain ⟨b0, rfl⟩ := h0 (by omega)
    rw [lastByte_snoc] at h
    simp only [ok_bind] at h
    rw [if_neg ho] at h
    cases h
    refine ⟨by simp [hk], hi, fun _ => ?_⟩
    rw [if_neg (fun e => hk e.1)]
    simp; omega

/-- The further elements of an array up to its end. -/
def layRest (s : Style) (n : Nat) : List Doc → Bytes
  | [] => c! '\n' :: (s.pad n ++ [c! ']'])
  | d :: r => b!",\n" ++ (s.pad (n + 1) ++ (d.layout s (n + 1) (s.pad (n + 1)).length ++ layRest s n r))

theorem block_cons (s : Style) (n : Nat) : ∀ (p : Bytes) (ds : List Doc),
    s.block n (c! '[') (c! ']') (p :: layElems s n (s.pad (n + 1)).length ds) = c! '[' :: c! '\n' :: (s.pad (n + 1) ++ (p ++ layRest s n ds))
  | p, [] => by simp [Style.block, layElems, commaLines, layRest]
  | p, d :: ds => by
    have := block_cons s n (d.layout s (n + 1) (s.pad (n + 1)).length) ds
    simp only [Style.block, layElems, List.map_cons, commaLines, layRest, List.cons.injEq, true_and, List.append_assoc] at this ⊢
    rw [this]

/-- The element of an array. -/
theorem layItem {json : Bytes} {any : PrettyFn} (hany : AnyLays json any) {a : PArgs} {n depth : Nat} (hp : a.pretty = true)
    {v s g : Bytes} {d : Doc} (hlim : depth + d.height < MAX_DEPTH) (hg : ∀ c ∈ g, c ≤ c! ' ' ∨ c = c! ',' ∨ c = c! ':') (hv : Denotes v d) (hs : Follow s)
    {fuel i : Nat} {nl : Int} {buf : Bytes} {pairs : List Pair} {k : Nat} {res : Bytes × Nat × Int × Bool}
    (h0 : k = 0 → ∃ b0, buf = b0 ++ [c! '[']) (hA : At json i (g ++ (v ++ s))) {c : UInt8} {q : Bytes} (hA' : At json i (c :: q))
    (h1 : ¬ c ≤ c! ' ') (h2 : c ≠ c! ']')
    (h : prettyObjLoop any json (c! '[') (c! ']') a n (-1) depth fuel i nl buf pairs k = .ok res) :
    ∃ fuel' i' nl', At json i' s ∧ prettyObjLoop any json (c! '[') (c! ']') a n (-1) depth fuel' i' nl'
      (buf ++ ((if k > 0 then b!",\n" else b!"\n") ++ ((style a).pad (n + 1) ++
        (norm a.sortKeys d).layout (style a) (n + 1) (((style a).pad (n + 1)).length + if k > 0 then 0 else 1)))) pairs (k + 1) = .ok res := by
  obtain ⟨nl1, b1, b2, i2, nl2, kend, b3, i3, nl3, ok3, fuel2, e1, e2, e3, h3⟩ := objLoop_item hA' h1 h2 (.inl rfl) h
  obtain ⟨hb1, hind, hcol⟩ := layLine (n := n) hp h0 (by decide) e1
  rw [hind] at e2
  unfold prettyKey at e2
  rw [if_neg (by decide)] at e2
  cases e2
  rcases h3 with ⟨hm, _, _⟩ | ⟨_, h3⟩
  · exact absurd rfl hm
  obtain ⟨h4, h5⟩ := hany a (n + 1) depth _ i nl1 g v s d _ (((style a).pad (n + 1)).length + if k > 0 then 0 else 1) hp hlim (by
    intro hw
    have := hcol hw
    simp only [and_true] at this
    rw [List.length_append]
    split at this
    · rw [if_pos (by assumption)]; omega
    · rw [if_neg (by assumption)]; omega) hg hv hs hA e3
  unfold prettyPairs at h3
  rw [if_neg (by simp)] at h3
  simp only at h4 h5
  refine ⟨fuel2, i3, nl3, h5, ?_⟩
  rw [h4, hb1] at h3
  simpa using h3

theorem arrLays {json : Bytes} {any : PrettyFn} (hany : AnyLays json any) {a : PArgs} {n depth : Nat} {r : Bytes}
    (hp : a.pretty = true) {ds : List Doc} {s : Bytes} (hs : RestA r ds s) :
    ∀ {fuel i : Nat} {nl : Int} {buf : Bytes} {pairs : List Pair} {k : Nat} {res : Bytes × Nat × Int × Bool},
    (∀ d ∈ ds, depth + d.height < MAX_DEPTH) → At json i s → 0 < k → NoSpaceEnd buf →
    prettyObjLoop any json (c! '[') (c! ']') a n (-1) depth fuel i nl buf pairs k = .ok res →
    res.1 = buf ++ layRest (style a) n (ds.map (norm a.sortKeys)) ∧ At json res.2.1 r := by
  induction hs with
  | @nil w hws =>
    intro fuel i nl buf pairs k res _ hA hk he h
    obtain ⟨fuel', i', hA', h'⟩ := objLoop_ws hws hA h
    obtain ⟨h1, h2⟩ := layClose hp hk (by decide) (b := buf) (by unfold closeSort; rw [if_neg (by simp)]) he (objLoop_close (by decide) hA' h')
    rw [h1, h2]
    exact ⟨rfl, hA'.cons⟩
  | @cons w w' v s d ds hws hws' hv hs ih =>
    intro fuel i nl buf pairs k res hlim hA hk he h
    obtain ⟨fuel', i', hA', h'⟩ := objLoop_ws hws hA h
    obtain ⟨fuel2, i2, nl2, hA2, h2⟩ := layItem hany hp (hlim d (by simp)) (gap_comma hws') hv hs.follow (by omega) hA' hA' (by decide) (by decide) h'
    have hend := layout_end hv a.sortKeys (style a) (n + 1) (((style a).pad (n + 1)).length + if k > 0 then 0 else 1)
    obtain ⟨h3, h4⟩ := ih (fun d hd => hlim d (by simp [hd])) hA2 (Nat.succ_pos k) (((hend.append _).append _).append _) h2
    refine ⟨?_, h4⟩
    rw [h3, if_pos hk, if_pos hk]
    simp [layRest]

theorem arrLayBody {json : Bytes} {any : PrettyFn} (hany : AnyLays json any) {a : PArgs} {n depth : Nat} {v r buf : Bytes}
    {ds : List Doc} (hp : a.pretty = true) (hv : Denotes v (.arr ds)) {i fuel : Nat} {nl : Int} {res}
    (hlim : ∀ d ∈ ds, depth + d.height < MAX_DEPTH) (hA : At json i (v ++ r))
    (h : prettyObjLoop any json (c! '[') (c! ']') a n (-1) depth fuel (i + 1) nl (buf ++ [c! '[']) [] 0 = .ok res) :
    res.1 = buf ++ (style a).block n (c! '[') (c! ']') (layElems (style a) n (((style a).pad (n + 1)).length + 1) (ds.map (norm a.sortKeys))) ∧
      At json res.2.1 r := by
  cases hv with
  | @arrEmpty w hws =>
    have hA' := hA.cons
    simp only [List.append_eq, List.append_assoc, List.cons_append, List.nil_append] at hA'
    obtain ⟨fuel', i', hA1, h1⟩ := objLoop_ws hws hA' h
    obtain ⟨h2, h3⟩ := layClose_empty hp (objLoop_close (by decide) hA1 h1)
    rw [h2, h3]
    exact ⟨rfl, hA1.cons⟩
  | @arr es hne hwf hd =>
    cases es with
    | nil => exact absurd rfl hne
    | cons e es =>
      obtain ⟨s, hs, hs'⟩ := restA_of_elems (r := r) hwf hd
      have hA' := hA.cons
      simp only [List.append_eq, List.append_assoc, List.cons_append, List.nil_append] at hA'
      rw [hs'] at hA'
      obtain ⟨fuel', i', hA1, h1⟩ := objLoop_ws (hwf e (by simp)).1 hA' h
      have hv := hd e (by simp)
      obtain ⟨c, q, hcq, hsv⟩ := Gjson.IsValue.cons (value_of_denotes hv)
      have hA2 := hA1
      rw [hcq] at hA2
      obtain ⟨fuel2, i2, nl2, hA3, h2⟩ := layItem hany hp (g := []) (hlim e.2 (by simp)) (by simp) hv hs.follow (fun _ => ⟨buf, rfl⟩) hA1 hA2
        (by unfold StartsValue IsDigit at hsv; grind) (by unfold StartsValue IsDigit at hsv; grind) h1
      have hend := layout_end hv a.sortKeys (style a) (n + 1) (((style a).pad (n + 1)).length + if 0 > 0 then 0 else 1)
      obtain ⟨h3, h4⟩ := arrLays hany hp hs (fun d hd => hlim d (by simp at hd ⊢; exact .inr hd)) hA3 (Nat.succ_pos 0) (((hend.append _).append _).append _) h2
      refine ⟨?_, h4⟩
      rw [h3]
      simp only [List.map_cons, layElems]
      rw [block_cons]
      simp

theorem prettyObj_lays_arr {json : Bytes} {any : PrettyFn} (hany : AnyLays json any) (hline : AnyLines json any) {v r : Bytes} {ds : List Doc}
    (hv : Denotes v (.arr ds)) {i : Nat} (hA : At json i (v ++ r)) {depth : Nat} {buf : Bytes} {k : Nat} {a : PArgs} {n : Nat} {nl : Int} {res}
    (hp : a.pretty = true) (hd : depth + elemHeight ds < MAX_DEPTH) {col : Nat} (hcol : a.width > 0 → (buf.length : Int) - nl = col)
    (h : prettyObj any json k (c! '[') (c! ']') a n (-1) depth buf i nl = .ok res) :
    res.1 = buf ++ (norm a.sortKeys (.arr ds)).layout (style a) n col ∧ At json res.2.1 r := by
  cases k with
  | zero => simp [prettyObj, outOfFuel] at h
  | succ k =>
    unfold prettyObj at h
    rw [if_neg (by omega)] at h
    simp only at h
    have body := fun hh => arrLayBody hany hp hv (buf := buf) (nl := nl) (fuel := json.length + 1) (n := n) (depth := depth) (res := res) (fun d hd => by have := elemHeight_le hd; omega) hA hh
    rw [norm_arr]
    unfold Doc.layout
    rw [← norm_arr, line_norm]
    by_cases hw : a.width > 0
    · rw [if_pos hw, if_pos ⟨hp, trivial, trivial⟩, hcol hw] at h
      split at h
      · rename_i hmax
        obtain ⟨⟨b1, i1, nl1, ok1⟩, h1, h⟩ := bind_eq_ok.1 h
        have hl := prettyObj_line (a := { a with pretty := false, indent := [] }) (max := a.width - col) hline hv hA rfl hw (by omega) hd h1
        simp only at h
        cases hd : (Doc.arr ds).line with
        | none =>
          rw [hd] at hl
          simp only [OnLine] at hl
          rw [if_neg (by simp [hl])] at h
          exact body h
        | some p =>
          rw [hd] at hl
          obtain ⟨rfl, h2, h3⟩ := hl
          simp only at h2 h3 ⊢
          by_cases hfit : (p.length : Int) ≤ a.width - col
          · rw [if_pos ⟨h3, by simp; omega⟩] at h
            rw [if_pos ⟨hmax, hfit⟩]
            cases h
            exact ⟨rfl, h2⟩
          · rw [if_neg (fun e => hfit (by have := e.2; simp at this; omega))] at h
            rw [if_neg (fun e => hfit e.2)]
            exact body h
      · rename_i hmax
        have hb := body h
        split
        · rw [if_neg (fun e => hmax e.1)]; exact hb
        · exact hb
    · rw [if_neg hw] at h
      have hb := body h
      split
      · rw [if_neg (fun e => by have := e.1; simp only [style] at this; omega)]; exact hb
      · exact hb

/-! ### Objects -/

/-- The text of a member. -/
def layMember (s : Style) (n : Nat) (m : Bytes × Doc) : Bytes :=
  m.1 ++ (b!": " ++ m.2.layout s (n + 1) ((s.pad (n + 1)).length + m.1.length + 3))

theorem layMembers_map (s : Style) (n : Nat) : ∀ ms, layMembers s n ms = ms.map (layMember s n)
  | [] => rfl
  | (k, d) :: r => by rw [layMembers, layMembers_map s n r]; rfl

/-- The state of the loop after some members. -/
structure LayState (json base buf : Bytes) (s : Style) (n : Nat) (b : Bool) (pairs : List Pair) (items : List Item) : Prop where
  ne : items ≠ []
  text : buf = base ++ c! '\n' :: joinP (items.map Item.piece)
  piece : ∀ it ∈ items, it.piece = s.pad (n + 1) ++ layMember s n it.kd ∧ NoSpaceEnd it.piece
  pairs : b = true → pairs = items.map Item.pair ∧ (∀ it ∈ items, InBuf json buf it) ∧
    items.Pairwise (fun a b => a.pair.vstart < b.pair.vstart) ∧ (∀ it ∈ items.head?, it.pair.vstart = base.length + 1)

/-- The state of the loop before a member. -/
def LayPre (json base buf : Bytes) (s : Style) (n : Nat) (b : Bool) (pairs : List Pair) (items : List Item) (k : Nat) : Prop :=
  (k = 0 ∧ items = [] ∧ buf = base ∧ pairs = []) ∨ (0 < k ∧ LayState json base buf s n b pairs items)

theorem joinP_end : ∀ {l : List Bytes}, l ≠ [] → (∀ p ∈ l, NoSpaceEnd p) → NoSpaceEnd (joinP l)
  | [], h, _ => absurd rfl h
  | [p], _, h => h p (by simp)
  | p :: q :: r, _, h => by
    rw [joinP]
    exact (joinP_end (l := q :: r) (by simp) (fun x hx => h x (by simp [hx]))).append _

/-- The members in their final order. -/
theorem closeSort_lays {json base buf : Bytes} {a : PArgs} {n : Nat} {pairs items}
    (h : LayState json base buf (style a) n a.sortKeys pairs items) :
    ∃ b, closeSort json (c! '{') a buf pairs = .ok b ∧ NoSpaceEnd b ∧
      b = base ++ c! '\n' :: commaLines ((order a.sortKeys (items.map Item.kd)).map fun m => (style a).pad (n + 1) ++ layMember (style a) n m) := by
  have key : ∀ {l : List Item}, (∀ it ∈ l, it ∈ items) → l.map Item.piece = (l.map Item.kd).map fun m => (style a).pad (n + 1) ++ layMember (style a) n m := by
    intro l hl
    rw [List.map_map]
    exact List.map_congr_left fun it hi => (h.piece it (hl it hi)).1
  have hend : ∀ {l : List Item}, l ≠ [] → (∀ it ∈ l, it ∈ items) → NoSpaceEnd (base ++ c! '\n' :: joinP (l.map Item.piece)) := by
    intro l hl hm
    have := joinP_end (l := l.map Item.piece) (by simpa using hl) (by
      intro p hp
      obtain ⟨it, hi, rfl⟩ := List.mem_map.1 hp
      exact (h.piece it (hm it hi)).2)
    exact (this.append [c! '\n']).append base
  unfold closeSort
  by_cases hs : a.sortKeys = true
  · rw [if_pos ⟨rfl, hs⟩]
    obtain ⟨h1, h2, h3, h4⟩ := h.pairs hs
    rw [h1, sortPairs_items h.ne h.text h2 h3 h4]
    have hm : ∀ it ∈ sortItems items, it ∈ items := fun it hi => (sortItems_perm items).mem_iff.1 hi
    have hne : sortItems items ≠ [] := fun e => h.ne (by have := (sortItems_perm items).length_eq; rw [e] at this; exact List.length_eq_zero_iff.1 this.symm)
    refine ⟨_, rfl, hend hne hm, ?_⟩
    rw [key hm, joinP_commaLines, sortItems_kd]
    simp [order, hs]
  · rw [if_neg (fun x => hs x.2)]
    refine ⟨_, rfl, ?_, ?_⟩
    · rw [h.text]; exact hend h.ne fun _ hi => hi
    · rw [h.text, key fun _ hi => hi, joinP_commaLines]
      simp [order, hs]

/-- One member of an object. -/
theorem layMember_step {json : Bytes} {any : PrettyFn} (hany : AnyLays json any) {a : PArgs} {n depth : Nat} {base buf0 : Bytes} (hbase : base = buf0 ++ [c! '{'])
    (hp : a.pretty = true) {k w1 w2 v s : Bytes} {d : Doc} (hk : StrLit k) (hw1 : Ws w1) (hw2 : Ws w2) (hv : Denotes v d) (hs : Follow s)
    (hlim : depth + d.height < MAX_DEPTH)
    {fuel i : Nat} {nl : Int} {buf : Bytes} {pairs : List Pair} {items : List Item} {m : Nat} {res : Bytes × Nat × Int × Bool}
    (hst : LayPre json base buf (style a) n a.sortKeys pairs items m)
    (hA : At json i (k ++ (w1 ++ c! ':' :: (w2 ++ (v ++ s)))))
    (h : prettyObjLoop any json (c! '{') (c! '}') a n (-1) depth fuel i nl buf pairs m = .ok res) :
    ∃ fuel' i' nl' buf' pairs' it, it.key = k ∧ it.doc = norm a.sortKeys d ∧ At json i' s ∧
      LayState json base buf' (style a) n a.sortKeys pairs' (items ++ [it]) ∧
      prettyObjLoop any json (c! '{') (c! '}') a n (-1) depth fuel' i' nl' buf' pairs' (m + 1) = .ok res := by
  have hk' := hk
  obtain ⟨body, hbody, ek⟩ := hk'
  have hA0 : At json i (c! '"' :: ((body ++ [c! '"']) ++ (w1 ++ c! ':' :: (w2 ++ (v ++ s))))) := by rw [ek] at hA; simpa using hA
  obtain ⟨nl1, b1, b2, i2, nl2, kend, b3, i3, nl3, ok3, fuel2, e1, e2, e3, h2⟩ :=
    objLoop_item hA0 (by decide) (by decide) (.inr rfl) h
  obtain ⟨hb1, hind, hcol⟩ := layLine (n := n) hp (by
    intro hn
    rcases hst with ⟨_, _, hb, _⟩ | ⟨hn', _⟩
    · exact ⟨buf0, hb.trans hbase⟩
    · omega) (by decide) e1
  rw [hind] at e2
  obtain ⟨e2', hslice, hklen⟩ := prettyKey_member (nl := nl1) (buf := b1 ++ (style a).pad (n + 1)) hk hA hp
  rw [e2'] at e2
  cases e2
  rcases h2 with ⟨hm, _, _⟩ | ⟨_, h2⟩
  · exact absurd rfl hm
  obtain ⟨h4, hA3⟩ := hany a (n + 1) depth _ (i + k.length) nl1 (w1 ++ c! ':' :: w2) v s d _ (((style a).pad (n + 1)).length + k.length + 3) hp hlim (by
    intro hw
    have := hcol hw
    rw [if_neg (by simp)] at this
    simp only [List.length_append, List.length_cons, List.length_nil]
    omega) (gap_colon hw1 hw2) hv hs (by simpa using hA.append) e3
  simp only at h4 hA3
  let piece := (style a).pad (n + 1) ++ layMember (style a) n (k, norm a.sortKeys d)
  have hpend : NoSpaceEnd piece := ((layout_end hv a.sortKeys (style a) (n + 1) _).append _ |>.append _).append _
  have hbuf3 : b3 = b1 ++ piece := by rw [h4]; simp [piece, layMember]
  rw [hbuf3] at h2
  let pair : Pair := ⟨i, if a.sortKeys then i + k.length else 0, b1.length, (b1 ++ piece).length⟩
  refine ⟨fuel2, i3, nl3, b1 ++ piece, _, ⟨k, norm a.sortKeys d, piece, pair⟩, rfl, rfl, hA3, ?_, h2⟩
  have htext : b1 ++ piece = base ++ c! '\n' :: joinP ((items ++ [(⟨k, norm a.sortKeys d, piece, pair⟩ : Item)]).map Item.piece) := by
    rw [hb1]
    rcases hst with ⟨rfl, rfl, rfl, rfl⟩ | ⟨hn, hs⟩
    · simp [joinP]
    · rw [hs.text, List.map_append, List.map_cons, List.map_nil, joinP_snoc _ (by simpa using hs.ne), if_pos hn]
      simp
  refine ⟨by simp, htext, ?_, ?_⟩
  · intro it hi
    rcases List.mem_append.1 hi with hi | hi
    · rcases hst with ⟨_, rfl, _, _⟩ | ⟨_, hs⟩
      · simp at hi
      · exact hs.piece it hi
    · simp at hi; subst hi; exact ⟨rfl, hpend⟩
  · intro hsort
    have hnew : InBuf json (b1 ++ piece) ⟨k, norm a.sortKeys d, piece, pair⟩ := by
      refine ⟨?_, by simp [pair], b1, [], by simp, by simp [pair], by simp [pair]⟩
      unfold pairKey
      simp only [pair, hsort, if_true]
      rw [if_neg (by omega)]; exact hslice
    have hpairs : prettyPairs (c! '{') a pairs i (if a.sortKeys then i + k.length else 0) b1.length (b1 ++ piece).length = pairs ++ [pair] := by
      unfold prettyPairs
      rw [if_pos ⟨hp, rfl, hsort, by simp [hsort], by simp⟩]
    rw [hpairs]
    rcases hst with ⟨rfl, rfl, rfl, rfl⟩ | ⟨hn, hs⟩
    · refine ⟨rfl, by simpa using hnew, by simp, ?_⟩
      simp [pair, hb1]
    · obtain ⟨h1, h2', h3, h4⟩ := hs.pairs hsort
      have hb1' : b1 ++ piece = buf ++ ([c! ',', c! '\n'] ++ piece) := by rw [hb1, if_pos hn]; simp
      refine ⟨by rw [h1]; simp, ?_, ?_, ?_⟩
      · intro it hi
        rcases List.mem_append.1 hi with hi | hi
        · rw [hb1']; exact (h2' it hi).append _
        · simp at hi; subst hi; exact hnew
      · rw [List.pairwise_append]
        refine ⟨h3, by simp, ?_⟩
        intro x hx y hy
        simp at hy; subst hy
        obtain ⟨pre, suf, hbf, hx1, hx2⟩ := (h2' x hx).piece
        have : x.pair.vstart ≤ buf.length := by rw [hbf, ← hx1]; simp
        simp only [pair, hb1, if_pos hn]
        simp; omega
      · have := hs.ne
        cases items with
        | nil => exact absurd rfl this
        | cons it items => simpa using h4

theorem block_ne (s : Style) (n : Nat) (o c : UInt8) {l : List Bytes} (h : l ≠ []) :
    s.block n o c l = o :: c! '\n' :: (commaLines (l.map fun p => s.pad (n + 1) ++ p) ++ c! '\n' :: (s.pad n ++ [c])) := by
  cases l with
  | nil => exact absurd rfl h
  | cons p r => rfl

/-- Objects after at least one member. -/
theorem objLays {json : Bytes} {any : PrettyFn} (hany : AnyLays json any) {a : PArgs} {n depth : Nat} {r buf0 : Bytes}
    (hp : a.pretty = true) {ds : List (Bytes × Doc)} {s : Bytes} (hs : RestO r ds s) :
    ∀ {fuel i : Nat} {nl : Int} {buf : Bytes} {pairs : List Pair} {items : List Item} {k : Nat} {res : Bytes × Nat × Int × Bool},
    (∀ d ∈ ds, depth + d.2.height < MAX_DEPTH) → At json i s →
    0 < k → LayState json (buf0 ++ [c! '{']) buf (style a) n a.sortKeys pairs items →
    prettyObjLoop any json (c! '{') (c! '}') a n (-1) depth fuel i nl buf pairs k = .ok res →
    res.1 = buf0 ++ (Doc.obj (order a.sortKeys (items.map Item.kd ++ ds.map fun m => (m.1, norm a.sortKeys m.2)))).layout (style a) n 0 ∧
      At json res.2.1 r := by
  induction hs with
  | @nil w hw =>
    intro fuel i nl buf pairs items k res _ hA hk hst h
    obtain ⟨fuel', i', hA', h'⟩ := objLoop_ws hw hA h
    obtain ⟨b, hb, he, htext⟩ := closeSort_lays hst
    obtain ⟨h1, h2⟩ := layClose hp hk (by decide) hb he (objLoop_close (by decide) hA' h')
    rw [h1, h2, htext]
    refine ⟨?_, hA'.cons⟩
    unfold Doc.layout
    have hne : order a.sortKeys (items.map Item.kd) ≠ [] := by
      intro e
      unfold order at e
      split at e
      · rw [← sortItems_kd] at e
        have := (sortItems_perm items).length_eq
        rw [List.map_eq_nil_iff.1 e] at this
        exact hst.ne (List.length_eq_zero_iff.1 this.symm)
      · exact hst.ne (List.map_eq_nil_iff.1 e)
    rw [List.map_nil, List.append_nil, layMembers_map, block_ne _ _ _ _ (by simpa using hne), List.map_map]
    simp [Function.comp_def]
  | @cons w w' w1 w2 k v s d ds hw hw' hw1 hw2 hk hv hs ih =>
    intro fuel i nl buf pairs items m res hlim hA hn hst h
    obtain ⟨fuel1, i1, hA1, h1⟩ := objLoop_ws hw hA h
    have hcomma : ∃ fuel2, prettyObjLoop any json (c! '{') (c! '}') a n (-1) depth fuel2 (i1 + 1) nl buf pairs m = .ok res := by
      cases fuel1 with
      | zero => simp [prettyObjLoop, outOfFuel] at h1
      | succ fuel1 =>
        unfold prettyObjLoop at h1
        rw [if_pos hA1.lt, hA1.idx] at h1
        simp only [ok_bind] at h1
        rw [if_neg (by decide), if_neg (by decide), if_neg (by decide)] at h1
        exact ⟨_, h1⟩
    obtain ⟨fuel2, h2⟩ := hcomma
    obtain ⟨fuel3, i3, hA3, h3⟩ := objLoop_ws hw' hA1.cons h2
    obtain ⟨fuel4, i4, nl4, buf4, pairs4, it, hit1, hit2, hA4, hst4, h4⟩ :=
      layMember_step hany rfl hp hk hw1 hw2 hv hs.follow (hlim (k, d) (by simp)) (.inr ⟨hn, hst⟩) hA3 h3
    have hkd : it.kd = (k, norm a.sortKeys d) := by unfold Item.kd; rw [hit1, hit2]
    have := ih (fun d hd => hlim d (by simp [hd])) hA4 (Nat.succ_pos m) hst4 h4
    simpa [hkd] using this

theorem objLayBody {json : Bytes} {any : PrettyFn} (hany : AnyLays json any) {a : PArgs} {n depth : Nat} {v r buf : Bytes}
    {ds : List (Bytes × Doc)} (hp : a.pretty = true) (hv : Denotes v (.obj ds)) {i fuel : Nat} {nl : Int} {res}
    (hlim : ∀ d ∈ ds, depth + d.2.height < MAX_DEPTH) (hA : At json i (v ++ r))
    (h : prettyObjLoop any json (c! '{') (c! '}') a n (-1) depth fuel (i + 1) nl (buf ++ [c! '{']) [] 0 = .ok res) :
    res.1 = buf ++ (norm a.sortKeys (.obj ds)).layout (style a) n 0 ∧ At json res.2.1 r := by
  rw [norm_obj]
  cases hv with
  | @objEmpty w hws =>
    have hA' := hA.cons
    simp only [List.append_eq, List.append_assoc, List.cons_append, List.nil_append] at hA'
    obtain ⟨fuel', i', hA1, h1⟩ := objLoop_ws hws hA' h
    obtain ⟨h2, h3⟩ := layClose_empty hp (objLoop_close (by decide) hA1 h1)
    rw [h2, h3]
    have ho : order a.sortKeys [] = [] := by unfold order; split <;> rfl
    exact ⟨by simp [ho, Doc.layout, layMembers, Style.block], hA1.cons⟩
  | @obj es hne hwf hd =>
    cases es with
    | nil => exact absurd rfl hne
    | cons e es =>
      obtain ⟨s, hs, hs'⟩ := restO_of_members (r := r) hwf hd
      have hA' := hA.cons
      simp only [List.append_eq, List.append_assoc, List.cons_append, List.nil_append] at hA'
      rw [hs'] at hA'
      have hW := hwf e (by simp)
      obtain ⟨fuel', i', hA1, h1⟩ := objLoop_ws hW.1 hA' h
      obtain ⟨fuel4, i4, nl4, buf4, pairs4, it, hit1, hit2, hA4, hst4, h4⟩ :=
        layMember_step hany rfl hp hW.2.1 hW.2.2.1 hW.2.2.2.1 (hd e (by simp)) hs.follow (hlim (e.1.key, e.2) (by simp)) (.inl ⟨rfl, rfl, rfl, rfl⟩) hA1 h1
      have hkd : it.kd = (e.1.key, norm a.sortKeys e.2) := by unfold Item.kd; rw [hit1, hit2]
      have := objLays hany hp hs (fun d hd => hlim d (by simp at hd ⊢; exact .inr hd)) hA4 (Nat.succ_pos 0) hst4 h4
      simpa [hkd] using this

theorem prettyAny_lays (json : Bytes) : ∀ n, AnyLays json (prettyAny json n)
  | 0 => by
    intro a n depth buf i nl g v r d res col _ _ _ _ _ _ _ h
    simp [prettyAny, outOfFuel] at h
  | k + 1 => by
    intro a n depth buf i nl g v r d res col hp hd hcol hg hv hr hA h
    unfold prettyAny at h
    obtain ⟨n', i', hA', h'⟩ := anyLoop_gap hg hA h
    have hc := anyLoop_cont hv hA' h'
    cases d with
    | leaf t =>
      obtain ⟨rfl, h1, h2, h3⟩ := hc
      have := anyLoop_leaf h1 h2 h3 hr hA' h'
      subst this
      rw [norm_leaf, Doc.layout]
      exact ⟨rfl, hA'.append⟩
    | arr ds =>
      exact prettyObj_lays_arr (prettyAny_lays json k) (prettyAny_lines json k) hv hA' hp (by simp only [Doc.height] at hd; omega) hcol hc
    | obj ds =>
      simp only at hc
      unfold prettyObj at hc
      rw [if_neg (by simp only [Doc.height] at hd; omega)] at hc
      simp only at hc
      have hb := fun hh => objLayBody (prettyAny_lays json k) hp hv (buf := buf) (nl := nl) (fuel := json.length + 1) (n := n) (depth := depth + 1) (res := res)
        (fun d hd' => by have := memHeight_le hd'; simp only [Doc.height] at hd; omega) hA' hh
      have : (norm a.sortKeys (.obj ds)).layout (style a) n col = (norm a.sortKeys (.obj ds)).layout (style a) n 0 := by
        rw [norm_obj]; simp only [Doc.layout]
      rw [this]
      split at hc
      · rw [if_neg (by simp), if_neg (by simp)] at hc
        exact hb hc
      · exact hb hc

/-- `pretty` of a JSON text is the layout of its (sorted) document. -/
theorem prettyOptions_layout {t v : Bytes} {d : Doc} (hv : Denotes v d) (hp : Padded v t) {o : PrettyOptions} (hlim : d.height < MAX_DEPTH) :
    prettyOptions t o = .ok (o.pfx ++ ((norm o.sortKeys d).layout ⟨o.width, o.pfx, o.indent⟩ 0 o.pfx.length ++ [c! '\n'])) := by
  obtain ⟨out, h⟩ := prettyOptions_ok t o
  obtain ⟨w1, w2, hw1, hw2, rfl⟩ := hp
  rw [h]
  unfold prettyOptions at h
  simp only at h
  obtain ⟨⟨buf, j, nl, ok⟩, h1, h⟩ := bind_eq_ok.1 h
  have hpfx : (if o.pfx.length ≠ 0 then o.pfx else []) = o.pfx := by
    split
    · rfl
    · rename_i hx
      exact (List.length_eq_zero_iff.1 (by omega)).symm
  rw [hpfx] at h1
  obtain ⟨h2, _⟩ := prettyAny_lays _ _ _ 0 0 _ 0 0 w1 v w2 d _ o.pfx.length rfl (by omega) (by simp) (gap_ws hw1) hv (Follow.ws' hw2) (At.zero _) h1
  simp only at h2
  simp only [style] at h2
  rw [h2] at h
  have hend := layout_end hv o.sortKeys ⟨o.width, o.pfx, o.indent⟩ 0 o.pfx.length
  obtain ⟨q, c, hq, _⟩ := hend
  rw [if_pos (by rw [hq]; simp; omega)] at h
  cases h
  simp

end Gjson
