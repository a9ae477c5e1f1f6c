import Verif.Lemmas.Leaf
import Verif.Lemmas.Grammar
import Verif.Lemmas.Strings
/-
What the scanners do on well-formed JSON values.
-/
namespace Gjson
open Spec

theorem isSimpleEsc_ne_u {e : UInt8} (h : IsSimpleEsc e) : e ≠ c! 'u' := by
  rintro rfl; exact absurd h (by decide)

theorem qStr_body {b q : Bytes} (h : StrBody b) :
    qStr (b ++ c! '"' :: q) = some (b ++ [c! '"'], decide (c! '\\' ∈ b), q) := by
  induction h with
  | nil => rw [qStr.eq_def]; simp
  | @plain c r h1 h2 h3 _ ih =>
    rw [List.cons_append, qStr.eq_def]
    simp only
    rw [if_neg h2, if_neg h3, ih]
    simp
    grind
  | @esc e r he _ ih =>
    rw [List.cons_append, List.cons_append, qStr.eq_def]
    simp only
    rw [if_neg (by decide), if_pos trivial, ih]
    simp [setEsc]
  | @uni h1 h2 h3 h4 r a1 a2 a3 a4 _ ih =>
    rw [List.cons_append, List.cons_append, qStr.eq_def]
    simp only
    rw [if_neg (by decide), if_pos trivial]
    have hx : ∀ x, IsHex x → ¬ StrTok x := by
      intro x hx; unfold IsHex at hx; unfold StrTok; grind
    have := qStr_plain (p := [h1, h2, h3, h4]) (s := r ++ c! '"' :: q) (by
      intro c hc
      simp only [List.mem_cons, List.not_mem_nil, or_false] at hc
      rcases hc with rfl | rfl | rfl | rfl
      · exact hx _ a1
      · exact hx _ a2
      · exact hx _ a3
      · exact hx _ a4)
    simp only [List.cons_append, List.nil_append] at this ⊢
    rw [this, ih]
    simp [setEsc]

/-- Bytes that may occur in a number literal. -/
theorem numLit_numCh {t : Bytes} (h : NumLit t) : ∀ c ∈ t, NumCh c := by
  have hd : ∀ c, IsDigit c → NumCh c := by intro c hc; unfold IsDigit at hc; unfold NumCh; grind
  obtain ⟨sg, ip, fp, ep, rfl, hs, h1, h2, h3⟩ := h
  intro c hc
  simp only [List.mem_append] at hc
  rcases hc with hc | hc | hc | hc
  · rcases hs with rfl | rfl
    · simp at hc
    · simp at hc; subst hc; decide
  · rcases h1 with rfl | ⟨d, ds, rfl, a1, a2, a3⟩
    · simp at hc; subst hc; decide
    · simp at hc
      rcases hc with rfl | hc
      · exact hd _ a1
      · exact hd _ (a3 _ hc)
  · rcases h2 with rfl | ⟨ds, rfl, _, a3⟩
    · simp at hc
    · simp at hc
      rcases hc with rfl | hc
      · decide
      · exact hd _ (a3 _ hc)
  · rcases h3 with rfl | ⟨e, sg, ds, rfl, he, hsg, _, a3⟩
    · simp at hc
    · simp only [List.mem_cons, List.mem_append] at hc
      rcases hc with rfl | hc | hc
      · rcases he with rfl | rfl <;> decide
      · rcases hsg with rfl | rfl | rfl
        · simp at hc
        · simp at hc; subst hc; decide
        · simp at hc; subst hc; decide
      · exact hd _ (a3 _ hc)

theorem numCh_not_sq {c : UInt8} (h : NumCh c) : ¬ SqTok c := by
  unfold NumCh at h; unfold SqTok StrTok OpenTok CloseTok; grind (splits := 30)

theorem ws_not_sq {c : UInt8} (h : IsWs c) : ¬ SqTok c := by
  unfold IsWs at h; unfold SqTok StrTok OpenTok CloseTok; grind (splits := 30)

theorem sq_ws {d : Nat} {w r : Bytes} (h : Ws w) : sq d false (w ++ r) = push1 w (sq d false r) :=
  sq_plain (fun c hc => ws_not_sq (h c hc))

theorem sq_strLit {d : Nat} {t r : Bytes} (h : StrLit t) : sq d false (t ++ r) = push1 t (sq d false r) := by
  obtain ⟨b, hb, rfl⟩ := h
  have e : (c! '"' :: (b ++ [c! '"'])) ++ r = c! '"' :: (b ++ c! '"' :: r) := by simp
  rw [e, sq.eq_def]
  simp only
  rw [if_pos trivial, sq_true, qStr_body hb]
  simp only
  rw [push1_push1]
  rfl

theorem sq_char {d : Nat} {c : UInt8} {r : Bytes} (h : ¬ SqTok c) :
    sq d false (c :: r) = push1 [c] (sq d false r) :=
  sq_plain (p := [c]) (by simpa using h)

/-- A scanner passes over `v`. -/
def SqPass (v : Bytes) : Prop := ∀ (d : Nat) (r : Bytes), sq (d + 1) false (v ++ r) = push1 v (sq (d + 1) false r)

theorem SqPass.append {a b : Bytes} (ha : SqPass a) (hb : SqPass b) : SqPass (a ++ b) := by
  intro d r; rw [List.append_assoc, ha, hb, push1_push1]
theorem SqPass.ws {w : Bytes} (h : Ws w) : SqPass w := fun _ _ => sq_ws h
theorem SqPass.char {c : UInt8} (h : ¬ SqTok c) : SqPass [c] := fun _ _ => sq_char h
theorem SqPass.plain {p : Bytes} (h : ∀ c ∈ p, ¬ SqTok c) : SqPass p := fun _ _ => sq_plain h

theorem SqPass.bracket {o c : UInt8} {b : Bytes} (ho : OpenTok o) (hc : CloseTok c) (h : SqPass b) :
    SqPass (o :: (b ++ [c])) := by
  intro d r
  have e : o :: (b ++ [c]) ++ r = o :: (b ++ c :: r) := by simp
  unfold OpenTok at ho
  unfold CloseTok at hc
  rw [e, sq.eq_def]
  simp only
  rw [if_neg (by grind), if_pos (show OpenTok o from ho), h, sq.eq_def]
  simp only
  rw [if_neg (by grind), if_neg (show ¬ OpenTok c by unfold OpenTok; grind), if_pos (show CloseTok c from hc), if_neg (by omega)]
  rw [push1_push1, push1_push1]
  simp

theorem SqPass.elems {es : List Elem} (hw : ∀ e ∈ es, e.Wf) (hv : ∀ e ∈ es, SqPass e.val) :
    SqPass (elemsText es) := by
  induction es with
  | nil => intro d r; simp [elemsText]
  | cons e es ih =>
    have h1 : SqPass e.text := by
      have := hw e (by simp)
      exact (SqPass.ws this.1).append ((hv e (by simp)).append (SqPass.ws this.2))
    cases es with
    | nil => simpa [elemsText] using h1
    | cons e' es =>
      have := ih (fun x hx => hw x (List.mem_cons_of_mem _ hx)) (fun x hx => hv x (List.mem_cons_of_mem _ hx))
      have e1 : elemsText (e :: e' :: es) = e.text ++ ([c! ','] ++ elemsText (e' :: es)) := by simp [elemsText]
      rw [e1]
      exact h1.append ((SqPass.char (by decide)).append this)

theorem SqPass.members {ms : List Member} (hw : ∀ e ∈ ms, e.Wf) (hv : ∀ e ∈ ms, SqPass e.val) :
    SqPass (membersText ms) := by
  induction ms with
  | nil => intro d r; simp [membersText]
  | cons e es ih =>
    have h1 : SqPass e.text := by
      obtain ⟨a1, a2, a3, a4, a5⟩ := hw e (by simp)
      have e1 : e.text = e.pre ++ (e.key ++ (e.mid1 ++ ([c! ':'] ++ (e.mid2 ++ (e.val ++ e.post))))) := by
        simp [Member.text]
      rw [e1]
      exact (SqPass.ws a1).append (SqPass.append (fun _ _ => sq_strLit a2) ((SqPass.ws a3).append
        ((SqPass.char (by decide)).append ((SqPass.ws a4).append ((hv e (by simp)).append (SqPass.ws a5))))))
    cases es with
    | nil => simpa [membersText] using h1
    | cons e' es =>
      have := ih (fun x hx => hw x (List.mem_cons_of_mem _ hx)) (fun x hx => hv x (List.mem_cons_of_mem _ hx))
      have e1 : membersText (e :: e' :: es) = e.text ++ ([c! ','] ++ membersText (e' :: es)) := by
        simp [membersText]
      rw [e1]
      exact h1.append ((SqPass.char (by decide)).append this)

theorem SqPass.value {v : Bytes} (h : IsValue v) : SqPass v := by
  induction h with
  | null => exact .plain (by decide)
  | true => exact .plain (by decide)
  | false => exact .plain (by decide)
  | str h => exact fun _ _ => sq_strLit h
  | num h => exact .plain (fun c hc => numCh_not_sq (numLit_numCh h c hc))
  | arrEmpty hw => exact .bracket (by decide) (by decide) (.ws hw)
  | arr _ hw _ ih => exact .bracket (by decide) (by decide) (.elems hw ih)
  | objEmpty hw => exact .bracket (by decide) (by decide) (.ws hw)
  | obj _ hw _ ih => exact .bracket (by decide) (by decide) (.members hw ih)

/-- The text between the brackets of a container is balanced, so the scanner
stops at the closing bracket. -/
theorem sq_close {c : UInt8} {b r : Bytes} (hc : CloseTok c) (h : SqPass b) :
    sq 1 false (b ++ c :: r) = some (b ++ [c], r) := by
  rw [show (1 : Nat) = 0 + 1 from rfl, h, sq.eq_def]
  unfold CloseTok at hc
  simp only
  rw [if_neg (by grind), if_neg (show ¬ OpenTok c by unfold OpenTok; grind), if_pos (show CloseTok c from hc)]
  simp

theorem Ws.pass_elems {v : Bytes} (h : IsValue v) {c : UInt8} {q : Bytes} (hv : v = c :: q)
    (hc : c = c! '{' ∨ c = c! '[') : ∃ b e, q = b ++ [e] ∧ CloseTok e ∧ SqPass b := by
  cases h with
  | null => simp at hv; grind
  | true => simp at hv; grind
  | false => simp at hv; grind
  | str h => obtain ⟨b, _, rfl⟩ := h; simp at hv; grind
  | num h =>
    obtain ⟨d, q', rfl, hd⟩ := NumLit.cons h
    simp at hv; unfold IsDigit at hd; grind
  | arrEmpty hw => simp at hv; exact ⟨_, _, hv.2.symm, by decide, .ws hw⟩
  | arr _ hw hv' => simp at hv; exact ⟨_, _, hv.2.symm, by decide, .elems hw (fun e he => .value (hv' e he))⟩
  | objEmpty hw => simp at hv; exact ⟨_, _, hv.2.symm, by decide, .ws hw⟩
  | obj _ hw hv' => simp at hv; exact ⟨_, _, hv.2.symm, by decide, .members hw (fun e he => .value (hv' e he))⟩

/-- The info bits of a JSON value. -/
def infoOf (v : Bytes) : UInt32 :=
  match v with
  | [] => 0
  | c :: r =>
    if c = c! '"' then escBit (decide (c! '\\' ∈ r)) ||| INFO_STRING
    else if c = c! '{' then INFO_OBJECT
    else if c = c! '[' then INFO_ARRAY
    else if c = c! 't' then INFO_TRUE
    else if c = c! 'f' then INFO_FALSE
    else if c = c! 'n' then INFO_NULL
    else numFlags (signBit c) r ||| INFO_NUMBER

theorem Follow.not_numCh {r : Bytes} (h : Follow r) : numTake r = [] ∧ numDrop r = r := by
  cases r with
  | nil => exact ⟨rfl, rfl⟩
  | cons c r =>
    have := h c (by simp)
    have hn : ¬ NumCh c := by
      unfold IsWs at this; unfold NumCh; grind (splits := 30)
    simp [numTake, numDrop, hn]

theorem numTake_lit {t r : Bytes} (h : ∀ c ∈ t, NumCh c) (hr : Follow r) :
    numTake (t ++ r) = t ∧ numDrop (t ++ r) = r := by
  induction t with
  | nil => exact hr.not_numCh
  | cons c t ih =>
    have := ih (fun x hx => h x (by simp [hx]))
    have hc := h c (by simp)
    unfold numTake numDrop at this ⊢
    simp [hc, this]

theorem leafTok_value {v r : Bytes} (h : IsValue v) (hr : Follow r) :
    leafTok (v ++ r) = (some (v, infoOf v), r) := by
  have hcont : ∀ c q, v = c :: q → (c = c! '{' ∨ c = c! '[') → leafTok (v ++ r) = (some (v, contBit c), r) := by
    intro c q hv hc
    obtain ⟨b, e, rfl, he, hb⟩ := Ws.pass_elems h hv hc
    subst hv
    have e1 : c :: (b ++ [e]) ++ r = c :: (b ++ e :: r) := by simp
    rw [e1]
    simp only [leafTok]
    rw [if_neg (by grind), if_pos hc, sq_close he hb]
  have hnum : NumLit v → leafTok (v ++ r) = (some (v, infoOf v), r) := by
    intro hn
    obtain ⟨c, q, rfl, hc⟩ := NumLit.cons hn
    have hch := numLit_numCh hn
    have h2 := numTake_lit (t := q) (r := r) (fun x hx => hch x (by simp [hx])) hr
    have hs : NumStart c := by unfold IsDigit at hc; unfold NumStart; grind
    have hs' := hs
    unfold NumStart at hs'
    simp only [List.cons_append, leafTok, infoOf]
    rw [if_neg (by grind), if_neg (by grind), if_pos hs, h2.1, h2.2]
    rw [if_neg (by grind), if_neg (by grind), if_neg (by grind), if_neg (by grind), if_neg (by grind),
      if_neg (by grind)]
  cases h with
  | null => simp [leafTok, infoOf, NumStart]
  | true => simp [leafTok, infoOf, NumStart]
  | false => simp [leafTok, infoOf, NumStart]
  | str h =>
    obtain ⟨b, hb, rfl⟩ := h
    have e : (c! '"' :: (b ++ [c! '"'])) ++ r = c! '"' :: (b ++ c! '"' :: r) := by simp
    rw [e]
    simp only [leafTok, infoOf]
    rw [if_pos trivial, if_pos trivial, qStr_body hb]
    simp
  | num h => exact hnum h
  | arrEmpty hw => rw [hcont _ _ rfl (.inr rfl)]; rfl
  | arr _ hw hv' => rw [hcont _ _ rfl (.inr rfl)]; rfl
  | objEmpty hw => rw [hcont _ _ rfl (.inl rfl)]; rfl
  | obj _ hw hv' => rw [hcont _ _ rfl (.inl rfl)]; rfl

/-- The `Value` for the JSON value text `v` at index `i`. -/
def leafVal (i : Option Nat) (v : Bytes) : Value := mkVal v i (infoOf v)

theorem kind_numFlags {f : UInt32} (h : NumFlags f) :
    kindMap (((f ||| INFO_NUMBER) <<< 24) >>> 24) = .number := by
  unfold NumFlags at h
  simp only [List.mem_cons, List.not_mem_nil, or_false] at h
  rcases h with rfl | rfl | rfl | rfl | rfl | rfl | rfl | rfl <;> decide

theorem infoOf_kind {v : Bytes} (h : v ≠ []) : kindMap ((infoOf v <<< 24) >>> 24) = kindOf v := by
  cases v with
  | nil => exact absurd rfl h
  | cons c r =>
    unfold infoOf kindOf
    simp only
    split
    · cases decide (c! '\\' ∈ r) <;> decide
    split
    · decide
    split
    · decide
    split
    · decide
    split
    · decide
    split
    · decide
    exact kind_numFlags (numFlags_mem (signBit_mem c))

theorem IsValue.ne_nil {v : Bytes} (h : IsValue v) : v ≠ [] := by
  obtain ⟨c, q, rfl, _⟩ := IsValue.cons h; simp

theorem leafVal_kind {i : Option Nat} {v : Bytes} (h : v ≠ []) : (leafVal i v).kind = kindOf v := by
  unfold leafVal; rw [mkVal_kind, infoOf_kind h]

theorem leafVal_json (i : Option Nat) (v : Bytes) : (leafVal i v).json = v := mkVal_json _ _ _

theorem unesc_body {b : Bytes} (h : StrBody b) (hb : c! '\\' ∉ b) : unesc b = b := by
  induction h with
  | nil => rfl
  | plain h1 h2 h3 _ ih => rw [unesc_plain (by grind) h3, ih (by simp at hb; exact hb.2)]
  | esc _ _ _ => simp at hb
  | uni _ _ _ _ _ _ => simp at hb

theorem stripQuotes_quoted (b : Bytes) : stripQuotes (c! '"' :: (b ++ [c! '"'])) = .ok b := by
  unfold stripQuotes
  rw [if_neg (by simp)]
  have h := At.zero (c! '"' :: (b ++ [c! '"']))
  exact h.cons.slice' (by simp; omega)

theorem escBit_str (f : Bool) : ((escBit f ||| INFO_STRING) &&& INFO_ESC = INFO_ESC ↔ f = true) ∧
    ((escBit f ||| INFO_STRING) &&& (INFO_STRING ||| INFO_ESC) = (INFO_STRING ||| INFO_ESC) ↔ f = true) ∧
    kindMap (((escBit f ||| INFO_STRING) <<< 24) >>> 24) = .string := by
  cases f <;> decide

/-- `str()` of a string value decodes its content. -/
theorem leafVal_str {i : Option Nat} {b : Bytes} (h : StrBody b) :
    (leafVal i (c! '"' :: (b ++ [c! '"']))).str = .ok (unesc b) := by
  have hi : infoOf (c! '"' :: (b ++ [c! '"'])) = escBit (decide (c! '\\' ∈ b)) ||| INFO_STRING := by
    simp [infoOf]
  unfold leafVal Value.str
  rw [mkVal_kind, mkVal_info, hi, (escBit_str _).2.2, mkVal_json]
  simp only
  by_cases hb : c! '\\' ∈ b
  · rw [if_pos ((escBit_str _).1.2 (by simpa using hb))]
    unfold mkVal
    rw [if_pos ((escBit_str _).2.1.2 (by simpa using hb)), unescQ_quoted]
  · rw [if_neg (fun x => hb (by simpa using (escBit_str _).1.1 x)), stripQuotes_quoted, unesc_body h hb]

end Gjson
