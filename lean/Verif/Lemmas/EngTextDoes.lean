import Verif.Lemmas.EngRepair
import Verif.Props.TextOps

/-! Text, comments, raw text and framesets consist of primitive changes. -/
namespace JH.Eng

section
variable {C : Cfg}

instance (f : Cfg → Option Str) : Does C (orErr f) := by
  refine ⟨fun s => ?_⟩
  unfold orErr
  split
  · exact .refl
  · exact .ctl rfl

/-! ### Text without invisible characters -/

theorem vis_strip (t : Str) : Vis C (stripInvisible t) := vis_of fun c hc => C55_none_left t c hc

instance vis_stripIf (t : Str) : Vis C (if C.plan.stripInvisible = true then stripInvisible t else t) := by
  by_cases h : C.plan.stripInvisible = true
  · rw [if_pos h]; exact vis_strip t
  · exact ⟨fun k => absurd k h⟩

theorem space_shows {c : Char} (h : isHtmlSpace c = true) : ¬ Spec.Invisible c := by
  simp only [isHtmlSpace, Bool.or_eq_true, decide_eq_true_eq] at h
  rcases h with (((rfl | rfl) | rfl) | rfl) | rfl <;> (unfold Spec.Invisible; decide)

theorem vis_spaces {t : Str} (h : ∀ c ∈ t, isHtmlSpace c = true) : Vis C t := vis_of fun c hc => space_shows (h c hc)

theorem true_of_takeWhile {p : Char → Bool} {c : Char} : ∀ {l : Str}, c ∈ l.takeWhile p → p c = true
  | [], h => absurd h (by simp)
  | a :: l, h => by
    rw [List.takeWhile_cons] at h
    split at h
    · next ha =>
      rcases List.mem_cons.1 h with rfl | h
      · exact ha
      · exact true_of_takeWhile h
    · exact absurd h (by simp)

instance (t : Str) : Vis C (t.takeWhile isHtmlSpace) := vis_spaces fun _ hc => true_of_takeWhile hc
instance (t : Str) : Vis C (t.filter isHtmlSpace) := vis_spaces fun _ hc => (List.mem_filter.1 hc).2
instance vis_tail (t : Str) [h : Vis C t] : Vis C t.tail := h.sub fun _ hc => List.mem_of_mem_tail hc
instance vis_ite (p : Prop) [Decidable p] (t u : Str) [h : Vis C t] [k : Vis C u] : Vis C (if p then t else u) := by
  split
  · exact h
  · exact k

/-- What is inserted depends on a text with a known property. -/
theorem Does.bindP {α β : Type} {m : EM α} {f : α → EM β} (P : α → Prop) [h : Does C m] (hP : ∀ s, P (m C s).1) (k : ∀ a, P a → Does C (f a)) :
    Does C (m >>= f) := ⟨fun s => by rw [bind_eq]; exact (h.out s).trans ((k _ (hP s)).out _)⟩

theorem orErr_vis {f : Cfg → Option Str} (h : ∀ t, f C = some t → Vis C t) (s : St) : Vis C (orErr f C s).1 := by
  unfold orErr
  cases hf : f C with
  | none => infer_instance
  | some t => exact h t hf

theorem cleanText_vis (b : Bool) (raw t : Str) (h : cleanText C b raw = some t) : Vis C t := by
  unfold cleanText at h
  rw [Option.map_eq_some_iff] at h
  obtain ⟨u, -, rfl⟩ := h
  infer_instance

instance (raw : Str) : Does C (framesetText raw) := by unfold framesetText; does
instance (raw : Str) : Does C (textInitial raw) := by unfold textInitial; does
instance (raw : Str) : Does C (textModes raw) := by unfold textModes; does
instance (raw : Str) (pend : Nat) : Does C (textColgroup raw pend) := by unfold textColgroup; does
instance [Ok C] (l : TextLoc) : Does C (textRecon l) := by unfold textRecon; does
instance (l : TextLoc) : Does C (textHead l) := by
  unfold textHead
  refine @Does.iteQ _ _ _ _ _ ?_ ?_
  · refine @Does.bind _ _ _ _ _ ?_ fun cand => ?_
    · infer_instance
    dsimp only
    split
    · infer_instance
    · refine Does.bindP (Vis C) (orErr_vis fun t ht => cleanText_vis _ _ _ ht) fun t ht => ?_
      does
  · infer_instance
instance (l : TextLoc) : Does C (textAfterHead l) := by unfold textAfterHead; does
instance (l : TextLoc) : Does C (textAfterBody l) := by unfold textAfterBody; does
instance (l : TextLoc) : Does C (textBodyStart l) := by unfold textBodyStart; does
instance (l : TextLoc) : Does C (textTable l) := by unfold textTable; does
instance (l : TextLoc) : Does C (textChars l) := by unfold textChars; does

theorem textChars_vis (l : TextLoc) (s : St) : Vis C (textChars l C s).1 := by
  unfold textChars
  rw [bind_eq]
  rw [bind_eq]
  generalize hm : (orErr fun C => _) = m
  have hv : ∀ s, Vis C (m C s).1 := by
    intro s
    rw [← hm]
    refine orErr_vis (fun t ht => ?_) s
    rw [Option.map_eq_some_iff] at ht
    obtain ⟨u, -, rfl⟩ := ht
    infer_instance
  have := hv (getS C s).2
  generalize m C (getS C s).2 = r at this
  unfold iteQ
  split
  · show Vis C (if _ then _ else _)
    infer_instance
  · exact this

theorem pendingSpace_vis (parent pend : Nat) (t : Str) [h : Vis C t] (s : St) : Vis C (pendingSpace parent pend t C s).1 := by
  unfold pendingSpace
  split
  · exact h
  · next l _ =>
    split
    · next hc =>
      simp only [Bool.and_eq_true] at hc
      have : Vis C ((s.n l).data.drop ((s.n l).data.length - pend)) := vis_spaces fun c hm => List.all_eq_true.1 hc.2 c (List.mem_of_mem_drop hm)
      exact vis_append _ _
    · exact h

instance (parent pend : Nat) (t : Str) : Does C (pendingSpace parent pend t) := by
  refine ⟨fun s => ?_⟩
  unfold pendingSpace
  split
  · exact .refl
  · next l hl =>
    split
    · next hc =>
      simp only [Bool.and_eq_true] at hc
      simp only
      split
      · exact .one (.shrink parent _ (List.dropLast_sublist _)) fun k => k.shrink parent _ (List.dropLast_sublist _)
      · exact data_steps s l (fun _ => (s.n l).data.take ((s.n l).data.length - pend)) (isText_kind hc.1.2) fun _ _ =>
          vis_spaces fun c hm => List.all_eq_true.1 hc.2 c (List.mem_of_mem_take hm)
    · exact .refl

theorem textAt_does (p : Nat) (pos : St → Nat) (t : Str) [Vis C t] : Does C (fun _ s => ((), (s.add (textNode t)).insertAt p (pos s) s.heap.length) : EM Unit) :=
  ⟨fun s => insertAt_steps s p _ _ (textLeaf C t) Vis.ok⟩

instance (parent pend : Nat) (t : Str) [Vis C t] : Does C (textPlace parent pend t) := by
  unfold textPlace
  refine @Does.bind _ _ _ _ _ ?_ fun foster => ?_
  · infer_instance
  split
  · refine Does.bindP (Vis C) (pendingSpace_vis parent pend t) fun t ht => ?_
    does
  · does

instance (l : TextLoc) : Does C (textInsert l) := by
  unfold textInsert
  refine Does.bindP (Vis C) (textChars_vis l) fun t ht => ?_
  have := fun p => textAt_does (C := C) p (fun s => (indexOf? (s.n p).children s.body).getD (s.n p).children.length) t
  does

instance [Ok C] (raw : Str) : Does C (appendText raw) := by unfold appendText; does

/-! ### Comments and doctypes -/

theorem notText {n : ENode} (h : n.kind ≠ .text) : TextOk C n := fun e => absurd e h

theorem Tidy.html_lt {s : St} (h : Tidy s) : s.html.getD 0 < s.heap.length := by
  cases hh : s.html with
  | none => have := (h.fixed s.doc (.inl rfl)).1; simp only [Option.getD_none]; omega
  | some x => exact (h.fixed x (.inr (.inl (by rw [hh]; rfl)))).1

theorem insertBeforeRoot_does {n : ENode} (h : LeafOk C n) (k : n.kind ≠ .text) : Does C (insertBeforeRoot n) := ⟨fun s =>
  leaf_steps s n _ _ h (notText k) fun x => .inl (x.fixed s.doc (.inl rfl)).1⟩

theorem appendMisc_does {n : ENode} (before : Str) (h : LeafOk C n) (k : n.kind ≠ .text) : Does C (appendMisc n before) := by
  have h1 : ∀ p, Does C (appendNew p n) := fun p => appendNew_does h (notText k)
  have h2 := insertBeforeRoot_does h k
  have h3 : Does C (insertInHtml n) := ⟨fun s => leaf_steps s n _ _ h (notText k) fun x => .inl x.html_lt⟩
  unfold appendMisc
  does

theorem appendComment_does (data before : Str) (h : C.plan.dropComments = false) : Does C (appendComment data before) :=
  appendMisc_does before ⟨rfl, rfl, rfl, rfl, .inr (.inl ⟨.inl rfl, h⟩)⟩ (fun e => by cases e)

theorem appendPi_does (data before : Str) (h : C.plan.dropComments = false) : Does C (appendPi data before) :=
  appendMisc_does before ⟨rfl, rfl, rfl, rfl, .inr (.inl ⟨.inr rfl, h⟩)⟩ (fun e => by cases e)

instance (s : Str) : Does C (parseDoctype s) := by
  unfold parseDoctype
  have h : Does C (whQ (fun C s => !C.fragment && !C.plan.dropDoctype && s.quirks = .unset && !s.explicitHtml && !s.bodyExplicit && !s.framesetBlocked &&
      !s.framesetSeen && !s.bodyHasContent) (do
    let d ← q fun C _ => doctypeOf C (s.takeWhile fun c => c ≠ '>')
    modS fun s => { s with quirks := d.2 }
    prependDoctype d.1)) := by
    refine Does.whQ' fun t ht => ?_
    simp only [Bool.and_eq_true, Bool.not_eq_true'] at ht
    have hd : C.plan.dropDoctype = false := ht.1.1.1.1.1.1.2
    have h1 : ∀ d, Does C (prependDoctype d) := fun d => insertBeforeRoot_does ⟨rfl, rfl, rfl, rfl, .inr (.inr ⟨rfl, hd⟩)⟩ (fun e => by cases e)
    exact does_steps (by does) t
  does

/-! ### Raw text -/

instance (name s : Str) : Does C (rawtextAsText name s) := by
  unfold rawtextAsText
  refine Does.bindP (Vis C) (fun s => by unfold q; infer_instance) fun t ht => ?_
  does
instance (b : Bool) : Does C (backToHead b) := by unfold backToHead; does
instance [Ok C] (name : Str) [Named C name] (attrs : Attrs) [Given C name attrs] (s : Str) : Does C (rcdataElement name attrs s) := by
  unfold rcdataElement
  refine Does.bindP (Vis C) (orErr_vis fun t ht => cleanText_vis _ _ _ ht) fun t ht => ?_
  does
instance : Does C closeP := by unfold closeP; does

/-- A plan that keeps invisible characters, or one of the excuses. -/
class Keeps (C : Cfg) : Prop where
  out : C.plan.stripInvisible = true → Excuse C

instance (t : Str) [h : Keeps C] : Vis C t := ⟨fun hs => .inl (h.out hs)⟩

instance [Ok C] [Keeps C] (name : Str) [Named C name] (attrs : Attrs) [Given C name attrs] (sc : Bool) (s : Str) : Does C (rawtextElement name attrs sc s) := by
  unfold rawtextElement; does
instance [Ok C] [Keeps C] (name : Str) [Named C name] (attrs : Attrs) [Given C name attrs] (sc : Bool) (s : Str) : Does C (plaintextElement name attrs sc s) := by
  unfold plaintextElement; does
instance (t : Str) : Does C (rawLiteral t) := by
  unfold rawLiteral
  refine Does.bindP (Vis C) (fun s => by unfold q; infer_instance) fun t ht => ?_
  does
instance [Ok C] (s : Str) : Does C (plaintextAsText s) := by unfold plaintextAsText; does
instance (name s : Str) : Does C (rawLiteralText name s) := by unfold rawLiteralText; does
instance (name s : Str) : Does C (skipRawtext name s) := by unfold skipRawtext; does

/-- The text of a fragment whose context holds only text. -/
theorem rcdataText_does (C : Cfg) : Does C (do
      let t ← orErr fun C => cleanText C true C.html
      let t ← q fun C _ => if C.ctxName = some c%"textarea" && t.head? = some '\n' then t.tail else t
      whQ (fun _ _ => !t.isEmpty) (do
        let d ← q fun _ s => s.doc
        appendNew d (textNode t))) := by
  refine Does.bindP (Vis C) (orErr_vis fun t ht => cleanText_vis _ _ _ ht) fun t ht => ?_
  refine Does.bindP (Vis C) (fun s => by unfold q; infer_instance) fun t ht => ?_
  does

/-! ### Framesets -/

instance : Does C (modS St.clearBody) := ⟨fun _ => .one .clearBody fun k => k.clearBody⟩
instance : Does C acceptFrameset := by unfold acceptFrameset; does

instance : Does C acceptFragmentFrameset := by
  unfold acceptFragmentFrameset
  have h : Does C (whQ (fun _ s => s.html.isSome && (s.n s.body).kind = .element) (do
      let h ← q fun _ s => s.html.getD 0
      let b ← q fun _ s => s.body
      removeChild h b
      stackToHtml)) := by
    refine Does.whQ' fun t ht => ?_
    rw [Bool.and_eq_true] at ht
    obtain ⟨h, hh⟩ := Option.isSome_iff_exists.1 ht.1
    have h1 : Steps C t (removeChild (t.html.getD 0) t.body C t).2 := by
      rw [hh]; exact .one (.dropBody h hh) fun k => k.dropBody h hh (by simpa using ht.2)
    exact h1.trans ((inferInstance : Does C stackToHtml).out _)
  does

end

end JH.Eng
