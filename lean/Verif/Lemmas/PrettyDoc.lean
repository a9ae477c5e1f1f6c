import Verif.SpecLim
import Verif.Lemmas.UglyDoc
import Verif.Lemmas.PrettyOk
import Verif.Lemmas.Order
/-
`pretty` on JSON texts: the printed text has the tokens of the (sorted) document.
-/
namespace Gjson
open Spec

/-- `q` gives the tokens `T`, whatever follows. -/
def Frag (q : Bytes) (T : List Bytes) : Prop := ∀ x, tokens (q ++ x) = T ++ tokens x

/-- `q` gives the tokens `T` when a byte follows that ends a token. -/
def FragB (q : Bytes) (T : List Bytes) : Prop := ∀ x, Break x → tokens (q ++ x) = T ++ tokens x

theorem Frag.b {q T} (h : Frag q T) : FragB q T := fun x _ => h x
theorem Frag.ws {w : Bytes} (h : Ws w) : Frag w [] := fun x => by rw [tokens_ws h]; rfl
theorem Frag.nil : Frag [] [] := Frag.ws ws_nil
theorem Frag.struct {c : UInt8} (h : c ∈ structural) : Frag [c] [[c]] := fun x => tokens_struct h x
theorem Frag.str {t : Bytes} (h : StrLit t) : Frag t [t] := fun x => tokens_str h x
theorem Frag.append {q p T U} (h : Frag q T) (h' : Frag p U) : Frag (q ++ p) (T ++ U) := fun x => by
  rw [List.append_assoc, h, h', List.append_assoc]
theorem Frag.appendB {q p T U} (h : Frag q T) (h' : FragB p U) : FragB (q ++ p) (T ++ U) := fun x hx => by
  rw [List.append_assoc, h, h' x hx, List.append_assoc]
theorem FragB.sep {q T} {c : UInt8} (h : FragB q T) (hc : c ∈ structural) : Frag (q ++ [c]) (T ++ [[c]]) := fun x => by
  rw [List.append_assoc, List.cons_append, List.nil_append, h _ (.struct hc), tokens_struct hc]; simp
theorem FragB.ws {q T} {w : Bytes} (h : FragB q T) (hw : Ws w) : FragB (q ++ w) T := fun x hx => by
  rw [List.append_assoc, h _ (.ws hw hx), tokens_ws hw]
theorem FragB.value {v : Bytes} {d : Doc} (h : Denotes v d) : FragB v d.toks := tokens_value h
theorem FragB.tokens {q T} (h : FragB q T) : tokens q = T := by
  have := h [] .nil
  simpa [tokens_nil] using this

/-! ### What follows a value -/

/-- `ugly` keeps the tokens of the text. -/
def Calm (r : Bytes) : Prop := FragB (pUgly r) (tokens r)

theorem Break.append {r x : Bytes} (hr : Break r) (hx : Break x) : Break (r ++ x) := by
  cases r with
  | nil => exact hx
  | cons c r => exact .cons (hr c (by simp))

theorem Calm.ws {w r : Bytes} (h : Ws w) (hr : Calm r) : Calm (w ++ r) := by
  unfold Calm; rw [pUgly_ws h, tokens_ws h]; exact hr
theorem Calm.struct {c : UInt8} {r : Bytes} (h : c ∈ structural) (hr : Calm r) : Calm (c :: r) := by
  unfold Calm; rw [pUgly_struct h, tokens_struct h]
  exact (Frag.struct h).appendB hr
theorem Calm.str {t r : Bytes} (h : StrLit t) (hr : Calm r) : Calm (t ++ r) := by
  unfold Calm; rw [pUgly_str h, tokens_str h]
  exact (Frag.str h).appendB hr
theorem Calm.value {v r : Bytes} {d : Doc} (h : Denotes v d) (hb : Break r) (hb' : Break (pUgly r)) (hr : Calm r) : Calm (v ++ r) := by
  intro x hx
  rw [pUgly_value h, List.append_assoc, tokens_value (denotes_bare h) _ (hb'.append hx), tokens_value h _ hb, hr x hx, List.append_assoc]

/-- The rest of a text after a value. -/
structure After (r : Bytes) : Prop where
  follow : Follow r
  brk : Break (pUgly r)
  calm : Calm r

theorem After.nil : After [] := ⟨.nil, by rw [pUgly_nil]; exact .nil, by unfold Calm; rw [pUgly_nil, tokens_nil]; exact Frag.nil.b⟩
theorem After.ws {w r : Bytes} (h : Ws w) (hr : After r) : After (w ++ r) :=
  ⟨.ws h hr.follow, by rw [pUgly_ws h]; exact hr.brk, .ws h hr.calm⟩

/-- The rest of an array after one of its elements; `ds` are the documents of the
further elements, `r` is the text after the array. -/
inductive RestA (r : Bytes) : List Doc → Bytes → Prop
  | nil {w : Bytes} : Ws w → RestA r [] (w ++ c! ']' :: r)
  | cons {w w' v s : Bytes} {d : Doc} {ds : List Doc} : Ws w → Ws w' → Denotes v d → RestA r ds s →
      RestA r (d :: ds) (w ++ c! ',' :: (w' ++ (v ++ s)))

/-- The rest of an object after one of its members. -/
inductive RestO (r : Bytes) : List (Bytes × Doc) → Bytes → Prop
  | nil {w : Bytes} : Ws w → RestO r [] (w ++ c! '}' :: r)
  | cons {w w' w1 w2 k v s : Bytes} {d : Doc} {ds : List (Bytes × Doc)} : Ws w → Ws w' → Ws w1 → Ws w2 → StrLit k → Denotes v d → RestO r ds s →
      RestO r ((k, d) :: ds) (w ++ c! ',' :: (w' ++ (k ++ (w1 ++ c! ':' :: (w2 ++ (v ++ s))))))

/-- Tokens of further elements. -/
def commaE : List Doc → List Bytes
  | [] => []
  | d :: r => [c! ','] :: (d.toks ++ commaE r)

/-- Tokens of further members. -/
def commaM : List (Bytes × Doc) → List Bytes
  | [] => []
  | (k, d) :: r => [c! ','] :: k :: [c! ':'] :: (d.toks ++ commaM r)

theorem elemToks_cons (d : Doc) : ∀ ds, elemToks (d :: ds) = d.toks ++ commaE ds
  | [] => by simp [elemToks, commaE]
  | e :: ds => by rw [elemToks, elemToks_cons e ds]; simp [commaE]

theorem memToks_cons (k : Bytes) (d : Doc) : ∀ ds, memToks ((k, d) :: ds) = k :: [c! ':'] :: (d.toks ++ commaM ds)
  | [] => by simp [memToks, commaM]
  | (k', e) :: ds => by rw [memToks, memToks_cons k' e ds]; simp [commaM]

theorem RestA.follow {r ds s} (h : RestA r ds s) : Follow s := by
  cases h with
  | nil hw => exact .ws hw .brack
  | cons hw _ _ _ => exact .ws hw .comma

theorem RestO.follow {r ds s} (h : RestO r ds s) : Follow s := by
  cases h with
  | nil hw => exact .ws hw .brace
  | cons hw _ _ _ _ _ _ => exact .ws hw .comma

theorem RestA.tokens {r ds s} (h : RestA r ds s) : tokens s = commaE ds ++ [c! ']'] :: tokens r := by
  induction h with
  | nil hw => rw [tokens_ws hw, tokens_struct (by decide)]; rfl
  | cons hw hw' hv hr ih =>
    rw [tokens_ws hw, tokens_struct (by decide), tokens_ws hw', tokens_value hv _ hr.follow.break, ih]
    simp [commaE]

theorem RestO.tokens {r ds s} (h : RestO r ds s) : tokens s = commaM ds ++ [c! '}'] :: tokens r := by
  induction h with
  | nil hw => rw [tokens_ws hw, tokens_struct (by decide)]; rfl
  | cons hw hw' hw1 hw2 hk hv hr ih =>
    rw [tokens_ws hw, tokens_struct (by decide), tokens_ws hw', tokens_str hk, tokens_ws hw1, tokens_struct (by decide),
      tokens_ws hw2, tokens_value hv _ hr.follow.break, ih]
    simp [commaM]

theorem break_ugly_ws {w r : Bytes} {c : UInt8} (hw : Ws w) (hc : c ∈ structural) : Break (pUgly (w ++ c :: r)) := by
  rw [pUgly_ws hw, pUgly_struct hc]; exact .struct hc

theorem RestA.after {r ds s} (h : RestA r ds s) (hr : Calm r) : After s := by
  induction h with
  | nil hw => exact ⟨.ws hw .brack, break_ugly_ws hw (by decide), .ws hw (.struct (by decide) hr)⟩
  | cons hw hw' hv hr' ih =>
    exact ⟨.ws hw .comma, break_ugly_ws hw (by decide),
      .ws hw (.struct (by decide) (.ws hw' (.value hv hr'.follow.break ih.brk ih.calm)))⟩

theorem RestO.after {r ds s} (h : RestO r ds s) (hr : Calm r) : After s := by
  induction h with
  | nil hw => exact ⟨.ws hw .brace, break_ugly_ws hw (by decide), .ws hw (.struct (by decide) hr)⟩
  | cons hw hw' hw1 hw2 hk hv hr' ih =>
    exact ⟨.ws hw .comma, break_ugly_ws hw (by decide),
      .ws hw (.struct (by decide) (.ws hw' (.str hk (.ws hw1 (.struct (by decide) (.ws hw2 (.value hv hr'.follow.break ih.brk ih.calm)))))))⟩

theorem restA_of_elems {r : Bytes} : ∀ {e : Elem × Doc} {es : List (Elem × Doc)}, (∀ x ∈ e :: es, x.1.Wf) → (∀ x ∈ e :: es, Denotes x.1.val x.2) →
    ∃ s, RestA r (es.map Prod.snd) s ∧ elemsText ((e :: es).map Prod.fst) ++ c! ']' :: r = e.1.pre ++ (e.1.val ++ s)
  | e, [], hw, _ => ⟨_, .nil (hw e (by simp)).2, by simp [elemsText, Elem.text]⟩
  | e, e' :: es, hw, hd => by
    obtain ⟨s, h1, h2⟩ := restA_of_elems (r := r) (e := e') (es := es) (fun x hx => hw x (List.mem_cons_of_mem _ hx))
      (fun x hx => hd x (List.mem_cons_of_mem _ hx))
    refine ⟨_, .cons (hw e (by simp)).2 (hw e' (by simp)).1 (hd e' (by simp)) h1, ?_⟩
    simp only [List.map_cons, elemsText, List.append_assoc, List.cons_append] at h2 ⊢
    rw [h2]; simp [Elem.text]

theorem restO_of_members {r : Bytes} : ∀ {e : Member × Doc} {es : List (Member × Doc)}, (∀ x ∈ e :: es, x.1.Wf) → (∀ x ∈ e :: es, Denotes x.1.val x.2) →
    ∃ s, RestO r (es.map fun m => (m.1.key, m.2)) s ∧ membersText ((e :: es).map Prod.fst) ++ c! '}' :: r =
      e.1.pre ++ (e.1.key ++ (e.1.mid1 ++ c! ':' :: (e.1.mid2 ++ (e.1.val ++ s))))
  | e, [], hw, _ => ⟨_, .nil (hw e (by simp)).2.2.2.2, by simp [membersText, Member.text]⟩
  | e, e' :: es, hw, hd => by
    obtain ⟨s, h1, h2⟩ := restO_of_members (r := r) (e := e') (es := es) (fun x hx => hw x (List.mem_cons_of_mem _ hx))
      (fun x hx => hd x (List.mem_cons_of_mem _ hx))
    have hW := hw e' (by simp)
    refine ⟨_, .cons (hw e (by simp)).2.2.2.2 hW.1 hW.2.2.1 hW.2.2.2.1 hW.2.1 (hd e' (by simp)) h1, ?_⟩
    simp only [List.map_cons, membersText, List.append_assoc, List.cons_append] at h2 ⊢
    rw [h2]; simp [Member.text]

/-! ### The document that is printed -/

/-- The document, or the sorted document. -/
def norm (b : Bool) (d : Doc) : Doc := if b then d.sort else d

/-- The members, or the sorted members. -/
def order (b : Bool) (ms : List (Bytes × Doc)) : List (Bytes × Doc) := if b then sortMembers ms else ms

theorem sortElems_eq : ∀ ds, sortElems ds = ds.map Doc.sort
  | [] => rfl
  | d :: r => by rw [sortElems, sortElems_eq r]; rfl

theorem sortVals_eq : ∀ ds, sortVals ds = ds.map fun m => (m.1, m.2.sort)
  | [] => rfl
  | (k, d) :: r => by rw [sortVals, sortVals_eq r]; rfl

theorem norm_leaf (b : Bool) (t : Bytes) : norm b (.leaf t) = .leaf t := by cases b <;> simp [Doc.sort, norm]
theorem norm_arr (b : Bool) (ds : List Doc) : norm b (.arr ds) = .arr (ds.map (norm b)) := by
  cases b
  · have : norm false = id := by funext d; rfl
    rw [this, List.map_id]; rfl
  · have : norm true = Doc.sort := by funext d; rfl
    rw [this, ← sortElems_eq]; simp [Doc.sort]
theorem norm_obj (b : Bool) (ms : List (Bytes × Doc)) : norm b (.obj ms) = .obj (order b (ms.map fun m => (m.1, norm b m.2))) := by
  cases b
  · have : norm false = id := by funext d; rfl
    rw [this]; simp [order]
  · have : norm true = Doc.sort := by funext d; rfl
    rw [this, ← sortVals_eq]; simp [Doc.sort, order]

theorem elemHeight_le : ∀ {ds : List Doc} {d : Doc}, d ∈ ds → d.height ≤ elemHeight ds
  | [], _, h => by simp at h
  | e :: ds, d, h => by
    rcases List.mem_cons.1 h with rfl | h
    · simp only [elemHeight]; omega
    · have := elemHeight_le h; simp only [elemHeight]; omega

theorem memHeight_le : ∀ {ds : List (Bytes × Doc)} {d : Bytes × Doc}, d ∈ ds → d.2.height ≤ memHeight ds
  | [], _, h => by simp at h
  | (k, e) :: ds, d, h => by
    rcases List.mem_cons.1 h with rfl | h
    · simp only [memHeight]; omega
    · have := memHeight_le h; simp only [memHeight]; omega

/-! ### The document that is printed when the depth limit is met -/

/-- The document, or the document sorted as far as the printer gets. -/
def normLim (b : Bool) (n : Nat) (d : Doc) : Doc := if b then d.sortLim n else d

/-- The elements, sorted inside as far as the printer gets. -/
def limDocs (b : Bool) (n : Nat) (ds : List Doc) : List Doc := if b then limElems n ds else ds

/-- The members, sorted inside as far as the printer gets. -/
def limMems (b : Bool) (n : Nat) (ms : List (Bytes × Doc)) : List (Bytes × Doc) := if b then limVals n ms else ms

theorem limDocs_fit {b : Bool} {n : Nat} {d : Doc} {r : List Doc} (h : d.height ≤ n) :
    limDocs b n (d :: r) = norm b d :: limDocs b n r := by
  cases b
  · rfl
  · simp only [limDocs, if_true, norm]
    rw [limElems, if_pos h]

theorem limDocs_deep {b : Bool} {n : Nat} {d : Doc} {r : List Doc} (h : n < d.height) :
    limDocs b n (d :: r) = normLim b n d :: r := by
  cases b
  · rfl
  · simp only [limDocs, if_true, normLim]
    rw [limElems, if_neg (by omega)]

theorem limMems_fit {b : Bool} {n : Nat} {k : Bytes} {d : Doc} {r : List (Bytes × Doc)} (h : d.height ≤ n) :
    limMems b n ((k, d) :: r) = (k, norm b d) :: limMems b n r := by
  cases b
  · rfl
  · simp only [limMems, if_true, norm]
    rw [limVals, if_pos h]

theorem limMems_deep {b : Bool} {n : Nat} {k : Bytes} {d : Doc} {r : List (Bytes × Doc)} (h : n < d.height) :
    limMems b n ((k, d) :: r) = (k, normLim b n d) :: r := by
  cases b
  · rfl
  · simp only [limMems, if_true, normLim]
    rw [limVals, if_neg (by omega)]

theorem normLim_zero (b : Bool) (d : Doc) : normLim b 0 d = d := by
  cases b
  · rfl
  · cases d <;> simp [normLim, Doc.sortLim]

theorem normLim_arr (b : Bool) (n : Nat) (ds : List Doc) : normLim b (n + 1) (.arr ds) = .arr (limDocs b n ds) := by
  cases b
  · rfl
  · simp [normLim, limDocs, Doc.sortLim]

theorem normLim_obj {b : Bool} {n : Nat} {ms : List (Bytes × Doc)} (h : n < memHeight ms) :
    normLim b (n + 1) (.obj ms) = .obj (limMems b n ms) := by
  cases b
  · rfl
  · simp only [normLim, limMems, if_true, Doc.sortLim]
    rw [if_neg (by omega)]

mutual
theorem sortLim_fit : ∀ {n : Nat} {d : Doc}, d.height ≤ n → d.sortLim n = d.sort
  | _, .leaf t, _ => by simp [Doc.sortLim, Doc.sort]
  | 0, .arr es, h => by simp [Doc.height] at h
  | 0, .obj es, h => by simp [Doc.height] at h
  | n + 1, .arr es, h => by
    simp only [Doc.height] at h
    rw [Doc.sortLim, Doc.sort, limElems_fit (by omega)]
  | n + 1, .obj ms, h => by
    simp only [Doc.height] at h
    rw [Doc.sortLim, Doc.sort, if_pos (by omega)]
theorem limElems_fit : ∀ {n : Nat} {es : List Doc}, elemHeight es ≤ n → limElems n es = sortElems es
  | _, [], _ => by simp [limElems, sortElems]
  | n, d :: es, h => by
    simp only [elemHeight] at h
    rw [limElems, sortElems, if_pos (by omega), limElems_fit (by omega)]
end

theorem normLim_fit {b : Bool} {n : Nat} {d : Doc} (h : d.height ≤ n) : normLim b n d = norm b d := by
  cases b
  · rfl
  · exact sortLim_fit h

end Gjson
