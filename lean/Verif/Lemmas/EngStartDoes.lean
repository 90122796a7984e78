import Verif.Lemmas.EngEndDoes
import Verif.Lemmas.EngSuffix

/-! Start tags and the main loop consist of primitive changes. -/
namespace JH.Eng

section
variable {C : Cfg}

/-! ### Attributes of a scanned tag -/

theorem Ok.state [h : Ok C] (hr : C.plan.rawMode = false) {name : Str} {a : TagAction} (ha : C.plan.action name = some a)
    (hall : name ∈ C.plan.allowedTags) : a.preserveState = false ∧ a.stateAttrs = [] ∧ name ≠ c%"selectedcontent" := by
  rcases h.out with ⟨sc, hp⟩ | ⟨p, sc, hp, hno⟩
  · rw [hp] at hr; exact absurd hr (by simp [rawPlan])
  · rw [hp] at ha hall
    simp only [compilePlan, compileAction] at ha hall
    split at ha
    · exact absurd ha (by simp)
    · simp only [Option.some.injEq] at ha
      rw [← ha]
      refine ⟨by simp [hall], ?_, ?_⟩
      · have h1 : name ≠ c%"input" := fun h => hno c%"input" (by simp) (h ▸ hall)
        have h2 : name ≠ c%"option" := fun h => hno c%"option" (by simp) (h ▸ hall)
        simp only [if_neg h1, if_neg h2]
      · exact fun h => hno c%"selectedcontent" (by simp) (h ▸ hall)

theorem mem_dictSet {k : Str} {v : Option Str} {d : Attrs} {x : Str × Option Str} (h : x ∈ dictSet k v d) : x = (k, v) ∨ x ∈ d := by
  unfold dictSet at h
  split at h
  · obtain ⟨y, hy, hx⟩ := List.mem_map.1 h
    split at hx
    · exact .inl hx.symm
    · exact .inr (hx ▸ hy)
  · rcases List.mem_append.1 h with h | h
    · exact .inr h
    · exact .inl (by simpa using h)

/-- Attributes that the checks of the action returned. -/
def OutOk (C : Cfg) (a : TagAction) (l : Attrs) : Prop := ∀ kv ∈ l, kv.1 ∈ a.allowedAttrs ∧ ∃ raw v, attrOut C a kv.1 raw = some v ∧ kv.2 = some v

theorem skipAttrsF_nil : ∀ n s, (skipAttrsF n s).attrs = [] := by
  intro n
  induction n with
  | zero => intro s; rfl
  | succ n ih =>
    intro s
    unfold skipAttrsF
    repeat' (first | rfl | exact ih _ | split)

theorem actionAttrsF_ok (a : TagAction) (h1 : a.preserveState = false) (h2 : a.stateAttrs = []) :
    ∀ n acc s, OutOk C a acc → OutOk C a (actionAttrsF C a n acc s).attrs := by
  intro n
  induction n with
  | zero => intro acc s h; exact h
  | succ n ih =>
    intro acc s h
    unfold actionAttrsF
    simp only [h1, h2, List.contains_nil, Bool.and_false, Bool.or_self, Bool.not_false, Bool.and_true, Bool.false_and]
    cases lstripP isHtmlSpace s with
    | nil => exact h
    | cons c r =>
      simp only
      by_cases hc : c = '>'
      · rw [if_pos hc]; exact h
      rw [if_neg hc]
      by_cases hc2 : (decide (c = '/') && decide (r.head? = some '>')) = true
      · rw [if_pos hc2]; exact h
      rw [if_neg hc2]
      by_cases hc3 : (decide (c = '/') || decide (c = '=')) = true
      · rw [if_pos hc3]; exact ih _ _ h
      rw [if_neg hc3]
      generalize (if a.allowedAttrs.contains (c :: r.takeWhile fun x => !isAttrStop x) = true then (c :: r.takeWhile fun x => !isAttrStop x)
        else nulFix (foldName C (c :: r.takeWhile fun x => !isAttrStop x))) = key
      cases rawValue (lstripP isHtmlSpace (r.dropWhile fun x => !isAttrStop x)) with
      | none => exact h
      | some p =>
        obtain ⟨v, rest⟩ := p
        simp only
        by_cases hk : (!a.allowedAttrs.contains key) = true
        · rw [if_pos hk]; exact ih _ _ h
        rw [if_neg hk]
        cases decodeVal C v with
        | none => exact h
        | some v =>
          simp only [Bool.false_eq_true, if_false]
          cases ho : attrOut C a key v with
          | none => exact ih _ _ h
          | some w =>
            refine ih _ _ fun kv hkv => ?_
            rcases mem_dictSet hkv with rfl | hm
            · exact ⟨by simpa using hk, v, w, ho, rfl⟩
            · exact h kv hm

theorem actionAttrs_ok [Ok C] (hr : C.plan.rawMode = false) (name : Str) (s : Str) : AttrsOk C name (actionAttrs C (C.plan.action name) s).attrs := by
    refine .inr ⟨hr, ?_⟩
    by_cases ha : name ∈ C.plan.allowedTags
    · obtain ⟨a, h⟩ := Ok.known hr ha
      refine .inr ⟨a, h, ?_⟩
      obtain ⟨h1, h2, _⟩ := Ok.state hr h ha
      rw [h]
      unfold actionAttrs
      simp only
      split
      · intro kv hkv
        rw [skipAttrs, skipAttrsF_nil] at hkv
        exact absurd hkv (by simp)
      · exact actionAttrsF_ok a h1 h2 _ _ _ fun _ h => absurd h (by simp)
    · exact .inl ha

/-! ### Chains -/

theorem chainR_does : ∀ {l : List (EM (Option Str))}, (∀ m ∈ l, Does C m) → Does C (chainR l)
  | [], _ => by unfold chainR; infer_instance
  | m :: l, h => by
    have h1 := h m (by simp)
    have h2 := chainR_does (l := l) fun m hm => h m (by simp [hm])
    unfold chainR
    does

instance (pos : Str) (c : Cfg → St → Bool) (m : EM Unit) [Does C m] : Does C (retIf pos c m) := by unfold retIf; does
instance (c : Cfg → St → Bool) (m : EM Str) [Does C m] : Does C (retWith c m) := by unfold retWith; does
instance (c : Cfg → St → Bool) (m : EM Unit) [Does C m] : Does C (goIf c m) := by unfold goIf; does
instance (pos : Str) (c : Cfg → St → Bool) (m : EM Bool) [Does C m] : Does C (retOk pos c m) := by unfold retOk; does

/-- A test with the condition known. -/
theorem retIf_does {pos : Str} {c : Cfg → St → Bool} {m : EM Unit} (h : ∀ s, c C s = true → Steps C s (m C s).2) : Does C (retIf pos c m) :=
  Does.iteQ' (fun s hc => bind_steps (h s hc) .refl) fun _ _ => .refl

theorem retOk_does {pos : Str} {c : Cfg → St → Bool} {m : EM Bool} (h : ∀ s, c C s = true → Steps C s (m C s).2) : Does C (retOk pos c m) :=
  Does.iteQ' (fun s hc => bind_steps (h s hc) .refl) fun _ _ => .refl

/-! ### Formatting elements -/

theorem formattingElement_does [Ok C] (name : Str) [Named C name] (attrs : Attrs) [Given C name attrs] (compiled : Bool) (h : compiled = true → AttrsOk C name attrs) :
    DoesR C (NodeOk name) (formattingElement name attrs compiled) := by
  intro s
  cases compiled with
  | true => exact insertNote_does name attrs s.curParent (h rfl) s
  | false => exact insertEl_does name attrs false s.curParent s

/-- The name of a formatting element. -/
theorem isFmt_name [h : Ok C] {name : Str} (ha : isFmt (C.plan.action name) = true) : name ∉ [c%"table", c%"template"] := by
  have hm : name ∈ formatting := by
    unfold isFmt at ha
    rcases h.out with ⟨sc, hp⟩ | ⟨p, sc, hp, -⟩ <;>
    · rw [hp] at ha
      simp only [rawPlan, compilePlan, compileAction] at ha
      split at ha
      · exact absurd ha (by simp)
      · simpa using ha
  intro k
  simp only [List.mem_cons, List.not_mem_nil, or_false] at k
  rcases k with rfl | rfl <;> exact absurd hm (by decide +kernel)

theorem addEntry_steps (name : Str) [hn : Named C name] (hk : name ∉ [c%"table", c%"template"]) (sig : Attrs) (node : Nat) {s t : St} (hs : Steps C s t) (h : NodeOk name node t)
    (hf : Tidy s → ¬ Fixed t node) : Steps C s (addEntry name sig node C t).2 :=
  ⟨(hs.chain.trans (.one (.entry { eid := t.fmtNext, name := name, attrs := (t.n node).attrs, node := node, sig := sig, active := true } h.1 rfl h.2.2.2.1 h.2.1 hn
      ⟨h.2.2.1, h.2.2.2.2⟩))).trans (.one (.ctl rfl)),
    fun k => Tidy.core ((hs.tidy k).fmtNew (l := t.fmt ++ [some { eid := t.fmtNext, name := name, attrs := (t.n node).attrs, node := node, sig := sig, active := true }]) (by
      intro e he
      rcases List.mem_append.1 he with he | he
      · exact (hs.tidy k).fmtn e he
      · simp only [List.mem_singleton, Option.some.injEq] at he
        rw [he]; exact ⟨hf k, hk⟩)) rfl⟩

instance (name : Str) : Does C (closeEarlier name) := by unfold closeEarlier; does

theorem formattingStart_does [Ok C] (name : Str) [Named C name] (hk : name ∉ [c%"table", c%"template"]) (attrs : Attrs) [Given C name attrs] (compiled : Bool) (h : compiled = true → AttrsOk C name attrs) :
    Does C (formattingStart name attrs compiled) := by
  have h1 : Does C (do
      let node ← formattingElement name attrs compiled
      addEntry name attrs node) := ⟨fun s => by
    obtain ⟨h1, h2, h3⟩ := formattingElement_does name attrs compiled h s
    exact addEntry_steps name hk attrs _ h1 h2 h3⟩
  unfold formattingStart
  does

/-! ### The general function -/

instance : Does C closeTable := by unfold closeTable; does
instance (U : Uni) (a : Option TagAction) (attrs : Attrs) : Does C (blockFrameset U a attrs) := by unfold blockFrameset; does
instance [Ok C] (t : Tag) [Named C t.name] [Given C t.name t.attrs] : Does C t.insert := by unfold Tag.insert; infer_instance
instance [Ok C] (t : Tag) [Named C t.name] [Given C t.name t.attrs] : Does C t.insertAllowed := by unfold Tag.insertAllowed; infer_instance
instance (t : Tag) : Does C (startColgroup t) := by unfold startColgroup; does
instance (t : Tag) : Does C (startNoscript t) := by unfold startNoscript; does
instance (t : Tag) : Does C (startBeforeBody t) := by unfold startBeforeBody; does
instance (t : Tag) : Does C (startAfterHead t) := by unfold startAfterHead; does
instance [Ok C] (t : Tag) [h : Named C t.name] [Given C t.name t.attrs] : Does C (startInFrameset t) := by
  unfold startInFrameset
  by_cases hn : t.name = c%"noframes"
  · have : Keeps C := ⟨fun _ => by unfold Excuse; rw [← hn]; exact h⟩
    rw [if_pos hn]
    does
  · rw [if_neg hn]
    does
instance [Ok C] (t : Tag) [Named C t.name] [Given C t.name t.attrs] : Does C (startHrInSelect t) := by unfold startHrInSelect; does
instance [Ok C] (t : Tag) [Named C t.name] [Given C t.name t.attrs] : Does C (startForm t) := by unfold startForm; does
instance (t : Tag) : Does C (dropRawtext t) := by unfold dropRawtext; does
instance [Ok C] (t : Tag) [Named C t.name] [Given C t.name t.attrs] : Does C (startNoscriptHead t) := by unfold startNoscriptHead; does
instance : Does C closeButton := by unfold closeButton; does

instance : Does C cutForeign := by
  have : Does C (modS fun s => match (s.stack.drop 1).findIdx? (fun i => !openHtml (s.n i).ns) with
      | none => s
      | some k => s.cut (k + 1)) := by
    refine Does.modS fun s => ?_
    split
    · exact .refl
    · next k _ => exact does_steps (inferInstance : Does C (modS fun s => s.cut (k + 1))) s
  unfold cutForeign
  does

instance (t : Tag) : Does C (startRuby t) := by unfold startRuby; does
instance [Ok C] (c : Cfg → St → Bool) (p : Nat) : Does C (reconParent c p) := by unfold reconParent; does
instance [Ok C] (t : Tag) [Named C t.name] [Given C t.name t.attrs] (p : Nat) : Does C (startUnallowed t p) := by unfold startUnallowed; does
instance [Ok C] (t : Tag) [Named C t.name] [Given C t.name t.attrs] (p : Nat) : Does C (startAllowed t p) := by unfold startAllowed; does
instance (t : Tag) : Does C (startParent t) := by unfold startParent; does
instance [Ok C] (t : Tag) [Named C t.name] [Given C t.name t.attrs] (p : Nat) : Does C (startFinish t p) := by unfold startFinish; does
instance [Ok C] (t : Tag) [Named C t.name] [Given C t.name t.attrs] : Does C (startGeneral t) := by unfold startGeneral; does

/-- The attributes of a tag were checked, unless it stands in foreign content. -/
def TagOk (C : Cfg) (t : Tag) : Prop := t.foreign = false → t.name ≠ c%"math" → t.name ≠ c%"svg" → AttrsOk C t.name t.attrs

theorem mergeAttrs_eq (node : Nat) (as : Attrs) (s : St) : (mergeAttrs node as C s).2 =
    s.upd node fun n => { n with attrs := as.foldl (fun acc p => if acc.any (fun x => x.1 = p.1) then acc else acc ++ [p]) n.attrs } := rfl

theorem startHtml_steps (t : Tag) (hn : t.name = c%"html") (ha : AttrsOk C t.name t.attrs) (hf : C.fragment = false) (s : St) : Steps C s (startHtml t C s).2 := by
  have h : Does C (do
      match ← q fun _ s => s.html with
      | none => pure ()
      | some h => mergeAttrs h t.attrs) := by
    refine Does.bindQ fun s => ?_
    cases hs : s.html with
    | none => exact .refl
    | some h => simp only [mergeAttrs_eq]; exact .one (.attrs h _ (.inl ⟨hf, .inl ⟨hs, hn ▸ ha⟩⟩)) fun k => k.data _ _ (fun _ => rfl) (fun _ => rfl) (fun _ => rfl) fun _ => rfl
  have h2 : Does C (startHtml t) := by unfold startHtml; does
  exact h2.out s

theorem startHead_steps (t : Tag) (merge : Bool) (hn : t.name = c%"head") (ha : AttrsOk C t.name t.attrs) (hf : C.fragment = false) (s : St) :
    Steps C s (startHead t merge C s).2 := by
  have h : Does C (do
      match ← q fun _ s => s.head with
      | none => pure ()
      | some h => do
        if merge then mergeAttrs h t.attrs else pure ()
        stackToHead
        modS fun s => { s with afterHead := false }) := by
    refine Does.bindQ fun s => ?_
    cases hs : s.head with
    | none => exact .refl
    | some h =>
      have h2 : Does C (do
        stackToHead
        modS fun s => { s with afterHead := false }) := by does
      cases merge with
      | false => exact does_steps h2 s
      | true => exact Steps.trans (.one (.attrs h t.attrs (.inl ⟨hf, .inr (.inl ⟨hs, hn ▸ ha⟩)⟩)) fun k => k.data _ _ (fun _ => rfl) (fun _ => rfl) (fun _ => rfl) fun _ => rfl) (does_steps h2 _)
  have h2 : Does C (startHead t merge) := by unfold startHead; does
  exact h2.out s

theorem startBody_steps (t : Tag) (hn : t.name = c%"body") (ha : AttrsOk C t.name t.attrs) (hf : C.fragment = false) (s : St) :
    Steps C s (startBody t C s).2 := by
  have h2 : Does C (do
    iteQ (fun _ s => s.bodyExplicit) (pure ()) (do
      modS fun s => { s with bodyExplicit := true }
      iteQ (fun _ s => s.bodySeen) (pure ()) (do
        modS fun s => { s with bodySeen := true }
        stackToBody
        modS fun s => { s with afterHead := false })) : EM Unit) := by does
  have h : Does C (do
    let b ← q fun _ s => s.body
    whQ (fun _ s => (s.n s.body).kind = .element) (mergeAttrs b t.attrs)
    iteQ (fun _ s => s.bodyExplicit) (pure ()) (do
      modS fun s => { s with bodyExplicit := true }
      iteQ (fun _ s => s.bodySeen) (pure ()) (do
        modS fun s => { s with bodySeen := true }
        stackToBody
        modS fun s => { s with afterHead := false }))) := by
    refine Does.bindQ fun s => ?_
    refine bind_steps (whQ_steps fun _ => ?_) (does_steps h2 _)
    exact .one (.attrs s.body _ (.inl ⟨hf, .inr (.inr ⟨rfl, hn ▸ ha⟩)⟩)) fun k => by rw [mergeAttrs_eq]; exact k.data _ _ (fun _ => rfl) (fun _ => rfl) (fun _ => rfl) fun _ => rfl
  have h3 : Does C (startBody t) := by unfold startBody; does
  exact h3.out s

theorem inDoc_spec {t : Tag} {s : St} (h : inDoc t C s = true) : C.fragment = false ∧ t.foreign = false := by
  unfold inDoc at h
  simp only [Bool.and_eq_true, Bool.not_eq_true'] at h
  exact ⟨h.1.1, h.2⟩

theorem and_name {p : Bool} {a b : Str} (h : (p && decide (a = b)) = true) : p = true ∧ a = b := by
  simpa using h

theorem and_name' {p : Bool} {a b : Str} (h : (decide (a = b) && p) = true) : a = b := by
  simp only [Bool.and_eq_true, decide_eq_true_eq] at h
  exact h.1

theorem startTests1_does [Ok C] (t : Tag) [Named C t.name] [hg : Given C t.name t.attrs] (ht : TagOk C t) : ∀ m ∈ startTests1 t, Does C m := by
  intro m hm
  simp only [startTests1, List.mem_cons, List.not_mem_nil, or_false] at hm
  rcases hm with rfl | rfl | rfl | rfl | rfl | rfl | rfl | rfl | rfl | rfl | rfl | rfl
  · refine retIf_does fun s hs => ?_
    simp only [Bool.and_eq_true] at hs
    have hr : C.plan.rawMode = true := hs.1.1
    have h2 : Does C (do
        let b ← q fun _ s => s.body
        whQ (fun _ s => t.name = c%"body" && (s.n s.body).kind = .element) (mergeAttrs b t.attrs)) := by
      refine Does.bindQ fun s => whQ_steps fun hb => ?_
      simp only [Bool.and_eq_true, decide_eq_true_eq] at hb
      exact .one (.attrs _ _ (.inr ⟨hr, rfl, hb.2, hb.1 ▸ .inl ⟨hr, hg.out hr⟩⟩)) fun k => by rw [mergeAttrs_eq]; exact k.data _ _ (fun _ => rfl) (fun _ => rfl) (fun _ => rfl) fun _ => rfl
    exact bind_steps (does_steps (inferInstance : Does C (nsForStart t.name t.attrs)) s) (does_steps h2 _)
  · infer_instance
  · infer_instance
  · infer_instance
  · infer_instance
  · refine retIf_does fun s hs => ?_
    obtain ⟨h1, hn⟩ := and_name hs
    obtain ⟨hf, hfo⟩ := inDoc_spec h1
    exact startHtml_steps t hn (ht hfo (by rw [hn]; simp) (by rw [hn]; simp)) hf s
  · refine retIf_does fun s hs => ?_
    obtain ⟨h1, hn⟩ := and_name hs
    obtain ⟨hf, hfo⟩ := inDoc_spec h1
    exact startHead_steps t true hn (ht hfo (by rw [hn]; simp) (by rw [hn]; simp)) hf s
  · refine retIf_does fun s hs => ?_
    obtain ⟨h1, hn⟩ := and_name hs
    obtain ⟨hf, hfo⟩ := inDoc_spec h1
    exact startBody_steps t hn (ht hfo (by rw [hn]; simp) (by rw [hn]; simp)) hf s
  · infer_instance
  · infer_instance
  · infer_instance
  · unfold goIf; does

theorem poTemplate_does [Ok C] (t : Tag) [h : Named C t.name] [Given C t.name t.attrs] (c : Cfg → St → Bool) (hc : ∀ s, c C s = true → t.name = c%"template") :
    Does C (retIf t.pos c startPoTemplate) := retIf_does fun s hs => by
  have : Named C c%"template" := hc s hs ▸ h
  exact does_steps inferInstance s

theorem keeps_of_raw [h : Ok C] (hr : C.plan.rawMode = true) : Keeps C := by
  rcases h.out with ⟨sc, hp⟩ | ⟨p, sc, hp, -⟩
  · exact ⟨fun hs => by rw [hp] at hs; exact absurd hs (by simp [rawPlan])⟩
  · rw [hp] at hr; exact absurd hr (by simp [compilePlan])

theorem retWith_does {c : Cfg → St → Bool} {m : EM Str} (h : ∀ s, c C s = true → Does C m) : Does C (retWith c m) := by
  unfold retWith
  refine Does.iteQ' (fun s hs => ?_) fun s _ => .refl
  have := h s hs
  exact does_steps (by does) s

theorem startTests2_does [Ok C] (t : Tag) [Named C t.name] [Given C t.name t.attrs] (hta : t.a = C.plan.action t.name) : ∀ m ∈ startTests2 t, Does C m := by
  have hfm : Does C (retIf t.pos (fun C _ => isFmt t.a && (t.ht || breakoutStart C.E.U t.name t.attrs)) (formattingStart t.name t.attrs false)) := retIf_does fun s hs => by
    simp only [Bool.and_eq_true] at hs
    exact (formattingStart_does t.name (isFmt_name (hta ▸ hs.1)) t.attrs false (by simp)).out s
  have hpo := poTemplate_does (C := C) t (fun _ _ => t.name = c%"template" && !t.allowed && t.ht) fun s hs => by
    simp only [Bool.and_eq_true, decide_eq_true_eq] at hs
    exact hs.1.1
  have hr1 : Does C (retWith (fun C _ => C.plan.rawMode && t.ht && C.plan.rawtextElementTags.contains t.name) (rawtextElement t.name t.attrs t.sc t.pos)) :=
    retWith_does fun s hs => by
      simp only [Bool.and_eq_true] at hs
      have := keeps_of_raw (C := C) hs.1.1
      infer_instance
  have hr2 : Does C (retWith (fun C _ => t.ht && flag t.a (·.plaintext) && C.plan.rawMode) (plaintextElement t.name t.attrs t.sc t.pos)) :=
    retWith_does fun s hs => by
      simp only [Bool.and_eq_true] at hs
      have := keeps_of_raw (C := C) hs.2
      infer_instance
  intro m hm
  simp only [startTests2, List.mem_cons, List.not_mem_nil, or_false] at hm
  repeat' (first
    | (rcases hm with rfl | hm; · first | assumption | infer_instance | (unfold retOk; does) | (unfold retIf; does))
    | (subst hm; infer_instance))

theorem startChain_does [Ok C] (t : Tag) [Named C t.name] [Given C t.name t.attrs] (ht : TagOk C t) (hta : t.a = C.plan.action t.name) : Does C (startChain t) := by
  have h1 := chainR_does (startTests1_does t ht)
  have h2 : ∀ b, Does C (chainR (startTests2 { t with ht := b })) := fun b => chainR_does (startTests2_does { t with ht := b } hta)
  unfold startChain
  does

/-- The text after a `<` of the input. -/
class Inp (C : Cfg) (s : Str) : Prop where
  out : ('<' :: s) <:+ C.html

/-- The text after the `<` of a tag. -/
class InpTag (C : Cfg) (s : Str) : Prop where
  out : ('<' :: s) <:+ C.html ∧ ∃ c r, s = c :: r ∧ isAsciiLetter c = true

theorem Inp.general (s : Str) [h : InpTag C s] (b : Bool) : Named C (if generalName C (splitName s).1 = c%"image" && b then c%"img" else generalName C (splitName s).1) := by
  split
  · next hc => exact ⟨.inr (.inr ⟨rfl, s, h.out, .inr (and_name' hc).symm⟩)⟩
  · exact ⟨.inr (.inl ⟨s, h.out, .inr rfl⟩)⟩

theorem Inp.compiled (s : Str) [h : InpTag C s] : Named C (if compiledName C (splitName s).1 = c%"image" then c%"img" else compiledName C (splitName s).1) := by
  split
  · next hc => exact ⟨.inr (.inr ⟨rfl, s, h.out, .inl hc.symm⟩)⟩
  · exact ⟨.inr (.inl ⟨s, h.out, .inl rfl⟩)⟩

/-- The name of the element for a start tag. -/
class TagName (C : Cfg) (s : Str) (name : Str) : Prop where
  out : name = generalName C (splitName s).1 ∨ (name = c%"img" ∧ generalName C (splitName s).1 = c%"image")

theorem TagName.general (s : Str) (b : Bool) : TagName C s (if generalName C (splitName s).1 = c%"image" && b then c%"img" else generalName C (splitName s).1) := by
  split
  · next hc => exact ⟨.inr ⟨rfl, and_name' hc⟩⟩
  · exact ⟨.inl rfl⟩

instance [Ok C] (s : Str) [InpTag C s] : Does C (startTag s) := by
  have htn := fun b => TagName.general (C := C) s b
  have hnam := fun b => Inp.general (C := C) s b
  have h : ∀ name [Named C name] [TagName C s name] foreign, Does C (startChain
      { name := name, a := C.plan.action name,
        attrs := rawAttrs C (if C.plan.rawMode || name = c%"math" || name = c%"svg" || foreign then allAttrs C (splitName s).2
          else actionAttrs C (C.plan.action name) (splitName s).2).attrs,
        sc := (if C.plan.rawMode || name = c%"math" || name = c%"svg" || foreign then allAttrs C (splitName s).2
          else actionAttrs C (C.plan.action name) (splitName s).2).sc,
        pos := (if C.plan.rawMode || name = c%"math" || name = c%"svg" || foreign then allAttrs C (splitName s).2
          else actionAttrs C (C.plan.action name) (splitName s).2).rest,
        allowed := C.plan.rawMode || flag (C.plan.action name) (·.allowed), foreign := foreign }) := by
    intro name _ hname foreign
    have hg : Given C name (rawAttrs C (if C.plan.rawMode || name = c%"math" || name = c%"svg" || foreign then allAttrs C (splitName s).2
          else actionAttrs C (C.plan.action name) (splitName s).2).attrs) := ⟨fun hr kv hkv => by
      rw [hr] at hkv
      simp only [Bool.true_or, if_true] at hkv
      exact ⟨s, InpTag.out, hname.out, hkv⟩⟩
    refine startChain_does _ (fun hf h1 h2 => ?_) rfl
    simp only at hf h1 h2 ⊢
    cases hr : C.plan.rawMode with
    | true =>
      have h := hg.out hr
      rw [hr] at h
      exact .inl ⟨hr, h⟩
    | false =>
      have : rawAttrs C = id := by funext l; simp [rawAttrs, hr]
      rw [this]
      simp only [h1, h2, hf, decide_false, Bool.or_self, Bool.false_eq_true, if_false, id]
      exact actionAttrs_ok hr name _
  unfold startTag
  refine @Does.bindCfg _ _ _ ?_
  does

/-! ### The compiled function -/

theorem simpleStart_steps [Ok C] (t : Tag) [Named C t.name] [Given C t.name t.attrs] (hraw : C.plan.rawMode = false) (ha : t.a = C.plan.action t.name) (hat : AttrsOk C t.name t.attrs) (s : St)
    (h : simpleStartNow t C s = true) : Steps C s (simpleStart t C s).2 := by
  have hall : t.name ∈ C.plan.allowedTags ∧ t.name ≠ c%"selectedcontent" := by
    unfold simpleStartNow at h
    simp only [Bool.and_eq_true] at h
    have hf := h.1.1.1.1.1
    rw [ha] at hf
    unfold flag at hf
    cases hac : C.plan.action t.name with
    | none => rw [hac] at hf; simp at hf
    | some a =>
      rw [hac] at hf
      simp only [Option.map_some, Option.getD_some] at hf
      have : a.allowed = true := by
        rcases ‹Ok C›.out with ⟨sc, hp⟩ | ⟨p, sc, hp, _⟩
        · rw [hp] at hraw; exact absurd hraw (by simp [rawPlan])
        · rw [hp] at hac
          simp only [compilePlan, compileAction] at hac
          split at hac
          · exact absurd hac (by simp)
          · simp only [Option.some.injEq] at hac
            rw [← hac] at hf ⊢
            simp only [Bool.and_eq_true] at hf ⊢
            exact hf.1.1.1.1.1.1.1.1.1.1.1
      rw [(Ok.action hraw hac).1] at this
      have hm : t.name ∈ C.plan.allowedTags := by simpa using this
      exact ⟨hm, (Ok.state hraw hac hm).2.2⟩
  have hn : NewEl C s.fmt s.heap.length (elementNode t.name t.attrs (some c%"html")) [] := .plain t.name t.attrs c%"html" (by simp) fun _ => .inl hat
  have hput : ((s.add (elementNode t.name t.attrs (some c%"html"))).linkLast s.top s.heap.length).core =
      (put s (elementNode t.name t.attrs (some c%"html")) [] s.top ((s.add (elementNode t.name t.attrs (some c%"html"))).n s.top).children.length false false
        (decide ((elementNode t.name t.attrs (some c%"html")).name = c%"selectedcontent"))).core := by
    have hsel : decide ((elementNode t.name t.attrs (some c%"html")).name = c%"selectedcontent") = false := decide_eq_false (by simpa [elementNode] using hall.2)
    rw [hsel, linkLast_eq]
    simp [put, St.core, St.link, St.upd, St.n, St.add]
  have hlt : Tidy s → s.top < s.heap.length := fun k => by
    unfold St.top
    cases hs : s.stack.getLast? with
    | none => rw [List.getLastD_eq_getLast?, hs]; exact Nat.lt_of_le_of_lt (Nat.zero_le _) (k.fixed s.doc (.inl rfl)).1
    | some i => rw [List.getLastD_eq_getLast?, hs]; exact k.stk i (List.mem_of_getLast? hs)
  have hst := put_step (C := C) (s := s) (elementNode t.name t.attrs (some c%"html")) [] s.top
    ((s.add (elementNode t.name t.attrs (some c%"html"))).n s.top).children.length false false hn (.inr (.inr ⟨rfl, hall.1⟩)) (fun h => h)
    (Named.src t.name s rfl rfl)
  have hok := put_node (C := C) s s.top ((s.add (elementNode t.name t.attrs (some c%"html"))).n s.top).children.length false false
    (decide ((elementNode t.name t.attrs (some c%"html")).name = c%"selectedcontent")) hn
  have h1 : Steps C s ((s.add (elementNode t.name t.attrs (some c%"html"))).linkLast s.top s.heap.length) :=
    (Steps.one hst fun k => (put_tidy k hn _ _ _ _ _ (.inl (hlt k))).1).trans (.ctl hput)
  have hfr : Tidy s → Fresh ((s.add (elementNode t.name t.attrs (some c%"html"))).linkLast s.top s.heap.length) s.heap.length := fun k =>
    (put_tidy k hn _ _ _ _ _ (.inl (hlt k))).2.core (by simp only [St.core, Prod.mk.injEq] at hput; simp only [St.fixed, Prod.mk.injEq]; exact ⟨hput.1, ⟨hput.2.1, hput.2.2.1, hput.2.2.2.1, hput.2.2.2.2.1, hput.2.2.2.2.2.1⟩, hput.2.2.2.2.2.2.1⟩)
  have h2 := hok.core hput
  have h3 : ∀ u, Steps C u (whQ (fun _ _ => flag t.a (·.preLinefeed)) (modS fun s => { s with ignoreLf := true }) C u).2 := fun u =>
    does_steps (by does) u
  have htop : (s.add (elementNode t.name t.attrs (some c%"html"))).top = s.top := rfl
  have he : (simpleStart t C s).2 = (whQ (fun _ _ => flag t.a (·.preLinefeed)) (modS fun s => { s with ignoreLf := true }) C
      (whQ (fun _ _ => !flag t.a (·.void)) (push s.heap.length) C
        ((s.add (elementNode t.name t.attrs (some c%"html"))).linkLast s.top s.heap.length)).2).2 := rfl
  rw [he]
  exact (whQ_cases (P := fun t => Steps C s t) (push_steps h1 h2 hfr) h1).trans (h3 _)

instance (t : Tag) : Does C (safeColgroup t) := by unfold safeColgroup; does
instance (t : Tag) : Does C (safeNoscript t) := by unfold safeNoscript; does
instance (t : Tag) : Does C (safeAfterHead t) := by unfold safeAfterHead; does
instance [Ok C] (s : Str) [InpTag C s] (t : Tag) : Does C (dropSubtree s t) := by unfold dropSubtree; does
instance (t : Tag) : Does C (safeParent t) := by unfold safeParent; does

theorem insertRemoved_does [Ok C] (t : Tag) [Named C t.name] [Given C t.name t.attrs] (ha : AttrsOk C t.name t.attrs) (c : Cfg → St → Bool) (p : Nat) : Does C (insertRemoved t c p) := by
  have h : Does C (do
      let node ← insertCompiled t.name t.attrs p
      noteUnwrap node) := ⟨fun s => (insertUnwrap_does t.name t.attrs p ha s).1⟩
  unfold insertRemoved
  does

theorem safeButton_does [Ok C] (t : Tag) [Named C t.name] [Given C t.name t.attrs] (ha : AttrsOk C t.name t.attrs) : Does C (safeButton t) := by
  have := fun c p => insertRemoved_does t ha c p
  unfold safeButton
  does

theorem safeUnallowed_does [Ok C] (t : Tag) [Named C t.name] [Given C t.name t.attrs] (ha : AttrsOk C t.name t.attrs) (p : Nat) : Does C (safeUnallowed t p) := by
  have := fun c p => insertRemoved_does t ha c p
  unfold safeUnallowed
  does

theorem flag_allowed [Ok C] (hr : C.plan.rawMode = false) {t : Tag} (ha : t.a = C.plan.action t.name) (h : flag t.a (·.allowed) = true) :
    t.name ∈ C.plan.allowedTags := by
  rw [ha] at h
  unfold flag at h
  cases hac : C.plan.action t.name with
  | none => rw [hac] at h; simp at h
  | some a =>
    rw [hac] at h
    simp only [Option.map_some, Option.getD_some] at h
    rw [(Ok.action hr hac).1] at h
    simpa using h

theorem safeAllowed_does [Ok C] (t : Tag) [Named C t.name] [Given C t.name t.attrs] (ha : AttrsOk C t.name t.attrs) (hall : t.name ∈ C.plan.allowedTags) (p : Nat) : Does C (safeAllowed t p) := by
  have : ∀ p, Does C (insertCompiled t.name t.attrs p) := fun p => ⟨fun s => (insertCompiled_does t.name t.attrs p ha (.inr hall) s).1⟩
  unfold safeAllowed
  does

theorem safeFinish_does [Ok C] (t : Tag) [Named C t.name] [Given C t.name t.attrs] (hr : C.plan.rawMode = false) (ha : t.a = C.plan.action t.name) (hat : AttrsOk C t.name t.attrs) (p : Nat) :
    Does C (safeFinish t p) := by
  unfold safeFinish
  split
  · next h => exact safeAllowed_does t hat (flag_allowed hr ha h) p
  · exact safeUnallowed_does t hat p

theorem safeGeneral_does [Ok C] (t : Tag) [Named C t.name] [Given C t.name t.attrs] (hr : C.plan.rawMode = false) (ha : t.a = C.plan.action t.name) (hat : AttrsOk C t.name t.attrs) :
    Does C (safeGeneral t) := by
  have := safeFinish_does t hr ha hat
  unfold safeGeneral
  does

theorem inSafeDoc_spec {s : St} (h : inSafeDoc C s = true) : C.fragment = false := by
  unfold inSafeDoc at h
  simp only [Bool.and_eq_true, Bool.not_eq_true'] at h
  exact h.1

theorem safeTests_does [Ok C] (s : Str) (t : Tag) [Named C t.name] [Given C t.name t.attrs] [InpTag C s] (hr : C.plan.rawMode = false) (ha : t.a = C.plan.action t.name) (hat : AttrsOk C t.name t.attrs) :
    ∀ m ∈ safeTests s t, Does C m := by
  have h1 : Does C (retIf t.pos (simpleStartNow t) (simpleStart t)) := retIf_does fun s h => simpleStart_steps t hr ha hat s h
  have h2 : Does C (retIf t.pos (fun C s => inSafeDoc C s && t.name = c%"html") (startHtml t)) := retIf_does fun s hs => by
    obtain ⟨h1, hn⟩ := and_name hs
    exact startHtml_steps t hn hat (inSafeDoc_spec h1) s
  have h3 : Does C (retIf t.pos (fun C s => inSafeDoc C s && t.name = c%"head") (startHead t false)) := retIf_does fun s hs => by
    obtain ⟨h1, hn⟩ := and_name hs
    exact startHead_steps t false hn hat (inSafeDoc_spec h1) s
  have h4 : Does C (retIf t.pos (fun C s => inSafeDoc C s && t.name = c%"body") (startBody t)) := retIf_does fun s hs => by
    obtain ⟨h1, hn⟩ := and_name hs
    exact startBody_steps t hn hat (inSafeDoc_spec h1) s
  have h5 := safeButton_does t hat
  have h6 : Does C (retIf t.pos (fun _ _ => isFmt t.a) (formattingStart t.name t.attrs true)) := retIf_does fun s hs =>
    (formattingStart_does t.name (isFmt_name (ha ▸ hs)) _ _ fun _ => hat).out s
  have h7 := safeGeneral_does t hr ha hat
  have hpo := poTemplate_does (C := C) t (fun C _ => t.name = c%"template" && !C.plan.allowedTags.contains t.name) fun s hs => and_name' hs
  intro m hm
  simp only [safeTests, List.mem_cons, List.not_mem_nil, or_false] at hm
  repeat' (first
    | (rcases hm with rfl | hm; · first | assumption | infer_instance | (unfold goIf; does))
    | (subst hm; infer_instance))

theorem safeScan_ok [Ok C] (hr : C.plan.rawMode = false) (name : Str) (s : Str) : AttrsOk C name (safeScan C (C.plan.action name) s).attrs := by
  unfold safeScan
  split
  · exact attrsOk_nil name
  · exact actionAttrs_ok hr name s

theorem safeStartTag_does [Ok C] (hr : C.plan.rawMode = false) (s : Str) [InpTag C s] : Does C (safeStartTag s) := by
  have hnam := Inp.compiled (C := C) s
  have h : ∀ name [Named C name], Does C (chainR (safeTests s
      { name := name, a := C.plan.action name, attrs := (safeScan C (C.plan.action name) (splitName s).2).attrs,
        sc := (safeScan C (C.plan.action name) (splitName s).2).sc, pos := (safeScan C (C.plan.action name) (splitName s).2).rest,
        allowed := flag (C.plan.action name) (·.allowed), foreign := false })) := fun name _ =>
    have : ∀ a, Given C name a := fun _ => ⟨fun h => by rw [hr] at h; exact absurd h (by simp)⟩
    chainR_does (safeTests_does s _ hr rfl (safeScan_ok hr name _))
  unfold safeStartTag
  refine @Does.bindCfg _ _ _ ?_
  does

/-! ### The main loop -/

instance (raw : Str) : Does C (fastText raw) := by
  unfold fastText
  refine Does.bindP (Vis C) (orErr_vis fun t ht => cleanText_vis _ _ _ ht) fun t ht => ?_
  does
instance [Ok C] (raw : Str) : Does C (textRun raw) := by unfold textRun; does
instance (b : Bool) : Does C (resetLf b) := by unfold resetLf; does
instance [Ok C] (s : Str) : Does C (rangeEnd s) := by unfold rangeEnd; does

instance [Ok C] (s : Str) [InpTag C s] : Does C (rangeStart s) := by
  have : Does C (iteQ (fun C _ => useSafe C) (safeStartTag s) (startTag s)) := Does.iteQ' (fun st h => by
    unfold useSafe at h
    simp only [Bool.and_eq_true, Bool.not_eq_true'] at h
    exact (safeStartTag_does h.1.1 s).out st) fun st _ => does_steps inferInstance st
  unfold rangeStart
  does

theorem comment_does (d : Cfg → Str) (b : Cfg → Str) : Does C (whQ (fun C _ => !C.plan.dropComments) (fun C => appendComment (d C) (b C) C)) :=
  Does.whQ' fun s h => (appendComment_does (C := C) (d C) (b C) (by simpa using h)).out s

instance [Ok C] (s : Str) : Does C (rangeComment s) := by
  have := fun d : Str => comment_does (C := C) (fun _ => d) fun C => beforeLt C s
  unfold rangeComment
  does

instance (s : Str) : Does C (rangeCdata s) := by unfold rangeCdata; does
instance [Ok C] (s : Str) : Does C (rangeDoctype s) := by unfold rangeDoctype; does

instance [Ok C] (s : Str) : Does C (rangeBogus s) := by
  have := fun d : Str => comment_does (C := C) (fun _ => d) fun C => beforeLt C s
  unfold rangeBogus
  does

instance [Ok C] (s : Str) : Does C (rangeBang s) := by unfold rangeBang; does

instance (s : Str) : Does C (rangePiNode s) := by
  unfold rangePiNode
  refine Does.iteQ' (fun _ _ => .refl) fun st h => ?_
  cases hc : s.contains '>' with
  | false =>
    simp only [Bool.not_false, ↓reduceIte]
    exact whQ_steps fun _ => (appendComment_does (C := C) _ _ h).out st
  | true =>
    simp only [Bool.not_true, Bool.false_eq_true, ↓reduceIte]
    cases hp : piData C.E.U (s.takeWhile fun c => c ≠ '>') with
    | none => simp only; exact (appendComment_does (C := C) _ _ h).out st
    | some d => simp only; exact (appendPi_does (C := C) _ _ h).out st

instance [Ok C] (s : Str) : Does C (rangePi s) := by unfold rangePi; does
instance [Ok C] (s : Str) [Inp C s] : Does C (rangeMarkup s) := by
  unfold rangeMarkup
  cases s with
  | nil => does
  | cons c r =>
    by_cases hl : isAsciiLetter c = true
    · have : InpTag C (c :: r) := ⟨Inp.out, c, r, rfl, hl⟩
      does
    · dsimp only
      rw [if_neg hl]
      does

theorem rangeStep_does [Ok C] (s : Str) (h : s <:+ C.html) : Does C (rangeStep s) := by
  unfold rangeStep
  have h1 : Does C (match s.dropWhile fun c => c ≠ '<' with | [] => (pure [] : EM Str) | _ :: r => rangeMarkup r) := by
    cases hd : s.dropWhile (fun c => decide (c ≠ '<')) with
    | nil => simp only; infer_instance
    | cons c r =>
      have hc : c = '<' := by
        have := List.head?_dropWhile_not (fun c => decide (c ≠ '<')) s
        rw [hd] at this
        simpa using this
      have : Inp C r := ⟨by rw [← hc, ← hd]; exact (dw _ s).trans h⟩
      simp only; infer_instance
  exact Does.bind _ _

theorem rangeLoop_steps [Ok C] (n : Nat) (s : Str) (h : s <:+ C.html) (st : St) : Steps C st (rangeLoop n s C st).2 := by
  induction n generalizing s st with
  | zero => exact .refl
  | succ n ih =>
    unfold rangeLoop
    by_cases hs : s = []
    · rw [if_pos (by simpa using hs)]; exact .refl
    · rw [if_neg (by simpa using hs)]
      refine bind_steps ((rangeStep_does s h).out st) (ih _ ?_ _)
      exact (rangeStep_rest s hs st).trans ((List.tail_suffix _).trans h)

/-- All that happens between the setting up and the last steps of a parse is primitive changes. -/
theorem parseRange_steps [Ok C] (s : St) : Steps C s (parseRange C s).2 :=
  rangeLoop_steps _ _ (List.suffix_refl _) s

end

end JH.Eng
