import Verif.Lemmas.SelMonad
import Verif.Lemmas.SelAttr
/-! The invariant of the caches. -/
namespace JH
open Spec

/-- What selectors need from the heap. -/
structure SelHeap (h : Heap) : Prop where
  forest : Forest h
  reads : ∀ n, ∃ t, Reads h n t
  acyclic : ∀ n, ¬ Inside h n n
  host : ∀ t f, (h.obj t).content = some f → (h.obj f).parent = some t

theorem selHeap_of {h : Heap} (w : WF h) (hh : Host h) : SelHeap h where
  forest := wf_forest w
  reads := host_reads w hh
  acyclic := fun n hi => above_irrefl w n (inside_above w hh hi)
  host := hh

mutual
theorem reads_unique {h : Heap} : ∀ (t u : Tree) (a : Nat), Reads h a t → Reads h a u → t = u
  | .mk _ cs ct, u, a, ht, hu => by
    cases ht with
    | mk h1 h2 =>
      cases hu with
      | mk h3 h4 => rw [readsL_unique cs _ _ h1 h3, readsL_unique ct _ _ h2 h4]
theorem readsL_unique {h : Heap} : ∀ (ts us : List Tree) (l : List Nat), ReadsL h l ts → ReadsL h l us → ts = us
  | [], us, l, ht, hu => by cases ht; cases hu; rfl
  | t :: ts, us, l, ht, hu => by
    cases ht with
    | cons h1 h2 =>
      cases hu with
      | cons h3 h4 => rw [reads_unique t _ _ h1 h3, readsL_unique ts _ _ h2 h4]
end

/-- The text of a node. -/
def TextIs (U : Uni) (h : Heap) (n : Nat) (s : Str) : Prop := ∃ t, Reads h n t ∧ s = treeText U t

theorem textIs_unique {U : Uni} {h : Heap} {n : Nat} {s : Str} {t : Tree} (hs : TextIs U h n s) (ht : Reads h n t) : s = treeText U t := by
  obtain ⟨u, hu, rfl⟩ := hs
  rw [reads_unique u t n hu ht]

/-- `r` is the closest ancestor of `n` that satisfies `P`. -/
def Closest (h : Heap) (P : Nat → Prop) (n : Nat) : Option Nat → Prop
  | none => ∀ b, Above h b n → ¬ P b
  | some a => Above h a n ∧ P a ∧ ∀ b, Above h b n → P b → b = a ∨ Above h b a

/-- What an entry of the cache for ancestors is good for: what is found is right. It is the closest one only where `t` holds, and then the entry is for a
node that does not satisfy `P` itself: the search for ancestors also uses the entry of an ancestor that does, and misses that ancestor. -/
def AncOk (h : Heap) (t : Prop) (P : Nat → Prop) (n : Nat) (r : Option Nat) : Prop :=
  (∀ a, r = some a → Above h a n ∧ P a) ∧ (t → Closest h P n r ∧ ¬ P n)

/-- An element that satisfies `P`. -/
noncomputable def hit (h : Heap) (P : Nat → Prop) (x : Nat) : Bool := @decide (Elem h x ∧ P x) (Classical.propDecidable _)

theorem hit_iff {h : Heap} {P : Nat → Prop} {x : Nat} : hit h P x = true ↔ Elem h x ∧ P x := by
  unfold hit
  exact @decide_eq_true_iff _ (Classical.propDecidable _)

/-- The last of the siblings before `n` that is an element and satisfies `P`. -/
noncomputable def lastBefore (h : Heap) (P : Nat → Prop) (l : List Nat) (n : Nat) : Option Nat :=
  if n ∈ l then ((sibsBefore l n).filter (hit h P)).getLast? else none

/-- Every entry of a cache is what would be computed without it; for ancestors, this needs a depth below `D`. `sat` is the meaning of compounds, `S` says
which compounds are in use. -/
structure SelInv (U : Uni) (h : Heap) (S : Compound → Prop) (D : Nat) (sat : Compound → Nat → Prop) (c : SCtx) : Prop where
  parent : ∀ p d, c.parent p = some d → d = (pdOf U h (h.kids p)).d
  attrs : ∀ n d, c.attrs n = some d → d.lower = attrsLower U (h.attrsOf n) ∧
    (∀ ts, d.cls = some ts → ts = splitWs U.isSpace [] ((lookupS d.lower c%"class").getD [])) ∧
    ∀ a ts, d.toks a = some ts → ∃ v, lookupS d.lower a = some v ∧ ts = splitWs U.isSpace [] v
  nth : ∀ e r, c.nth e = some r → r = parseNth U e
  text : ∀ n s, c.text n = some s → TextIs U h n s
  anc : ∀ C, S C → ∀ d n r, c.anc C.key d n = some r → AncOk h (d < D) (sat C) n r
  prev : ∀ C, S C → ∀ p d m, c.prev p C.key d = some m → ∀ n, m n = lastBefore h (sat C) (h.kids p) n

variable {U : Uni} {h : Heap} {S : Compound → Prop} {D : Nat} {sat : Compound → Nat → Prop} {E : SErr → Prop}

theorem selInv_new (lim : SelLimits) : SelInv U h S D sat (.new lim) :=
  ⟨nofun, nofun, nofun, nofun, fun _ _ => nofun, fun _ _ => nofun⟩

theorem selInv_steps : Steps (SelInv U h S D sat) := fun _ i _ => ⟨i.parent, i.attrs, i.nth, i.text, i.anc, i.prev⟩

theorem selInv_bytes : SelBytes (SelInv U h S D sat) := fun _ _ i => ⟨i.parent, i.attrs, i.nth, i.text, i.anc, i.prev⟩

/-- The budgets may run out. -/
structure Budget (E : SErr → Prop) : Prop where
  steps : E .steps
  bytes : E .bytes

/-! ### Data about nodes -/

theorem parentLoop_ok (he : Budget E) (l : List Nat) : ∀ a, Ok (SelInv U h S D sat) (parentLoop U h a l) (fun r => r = l.foldl (parentStep U h) a) E := by
  induction l with
  | nil => intro a; exact Ok.pure rfl
  | cons x l ih => intro a; exact Ok.step selInv_steps he.steps (ih _)

theorem parentData_ok (he : Budget E) (p : Nat) : Ok (SelInv U h S D sat) (parentData U h p) (fun d => d = (pdOf U h (h.kids p)).d) E := by
  refine Ok.bind (Q := fun r => ∀ d, r = some d → d = (pdOf U h (h.kids p)).d) (Ok.get fun c i d hd => i.parent p d hd) ?_
  rintro (_ | d) hd
  · refine Ok.bind (parentLoop_ok he _ _) ?_
    rintro a rfl
    refine Ok.bind (Q := fun _ => True) (Ok.set ?_ trivial) fun _ _ => Ok.pure rfl
    intro c i
    refine ⟨?_, i.attrs, i.nth, i.text, i.anc, i.prev⟩
    intro q d hq
    dsimp only [fput] at hq
    by_cases hqp : q = p
    · subst hqp; rw [if_pos rfl] at hq; cases hq; rfl
    · rw [if_neg hqp] at hq; exact i.parent q d hq
  · exact Ok.pure (hd d rfl)

theorem attrLoop_ok (he : Budget E) (l : Dict) : ∀ acc, Ok (SelInv U h S D sat) (attrLoop U acc l) (fun r => r = l.foldl (attrPut U) acc) E := by
  induction l with
  | nil => intro a; exact Ok.pure rfl
  | cons x l ih => intro a; exact Ok.bytes selInv_bytes he.bytes (ih _)

/-- A right entry of the attribute cache. -/
def AttrData (U : Uni) (h : Heap) (n : Nat) (d : NodeAttrs) : Prop :=
  d.lower = attrsLower U (h.attrsOf n) ∧ (∀ ts, d.cls = some ts → ts = splitWs U.isSpace [] ((lookupS d.lower c%"class").getD [])) ∧
    ∀ a ts, d.toks a = some ts → ∃ v, lookupS d.lower a = some v ∧ ts = splitWs U.isSpace [] v

theorem setAttrs_ok (n : Nat) (d : NodeAttrs) (hd : AttrData U h n d) :
    Ok (SelInv U h S D sat) (SM.set fun c => { c with attrs := fput c.attrs n (some d) }) (fun _ => True) E := by
  refine Ok.set ?_ trivial
  intro c i
  refine ⟨i.parent, ?_, i.nth, i.text, i.anc, i.prev⟩
  intro q e hq
  dsimp only [fput] at hq
  by_cases hqn : q = n
  · subst hqn; rw [if_pos rfl] at hq; cases hq; exact hd
  · rw [if_neg hqn] at hq; exact i.attrs q e hq

theorem nodeAttrs_ok (he : Budget E) (n : Nat) : Ok (SelInv U h S D sat) (nodeAttrs U h n)
    (fun r => (r = none ∧ h.attrsOf n = []) ∨ ∃ d, r = some d ∧ AttrData U h n d) E := by
  unfold nodeAttrs
  by_cases h0 : h.attrsOf n = []
  · rw [if_pos h0]; exact Ok.pure (.inl ⟨rfl, h0⟩)
  · rw [if_neg h0]
    refine Ok.bind (Q := fun r => ∀ d, r = some d → AttrData U h n d) (Ok.get fun c i d hd => i.attrs n d hd) ?_
    rintro (_ | d) hd
    · refine Ok.bind (attrLoop_ok he _ _) ?_
      rintro l rfl
      have hn : AttrData U h n { lower := attrsLower U (h.attrsOf n) } := ⟨rfl, nofun, nofun⟩
      exact Ok.bind (setAttrs_ok n _ hn) fun _ _ => Ok.pure (.inr ⟨_, rfl, hn⟩)
    · exact Ok.pure (.inr ⟨d, rfl, hd d rfl⟩)

theorem splitTokens_ok (he : Budget E) (v : Str) : Ok (SelInv U h S D sat) (splitTokens U v) (fun r => r = splitWs U.isSpace [] v) E :=
  Ok.bytes selInv_bytes he.bytes (Ok.pure rfl)

/-- The value of an attribute, `none` where there is none. -/
def attrVal (U : Uni) (h : Heap) (n : Nat) (name : Str) : Option Str := lookupS (attrsLower U (h.attrsOf n)) name

theorem attrValue_ok (he : Budget E) (n : Nat) (name : Str) : Ok (SelInv U h S D sat) (attrValueOf U h n name) (fun r => r = attrVal U h n name) E := by
  refine Ok.bind (nodeAttrs_ok he n) ?_
  rintro r (⟨rfl, h0⟩ | ⟨d, rfl, hd⟩)
  · exact Ok.pure (by simp [attrVal, h0, attrsLower, lookupS])
  · exact Ok.pure (by rw [hd.1]; rfl)

theorem classTokens_ok (he : Budget E) (n : Nat) : Ok (SelInv U h S D sat) (classTokens U h n)
    (fun r => r = splitWs U.isSpace [] ((attrVal U h n c%"class").getD [])) E := by
  refine Ok.bind (nodeAttrs_ok he n) ?_
  rintro r (⟨rfl, h0⟩ | ⟨d, rfl, hd⟩)
  · exact Ok.pure (by simp [attrVal, h0, attrsLower, lookupS, splitWs])
  · have e : attrVal U h n c%"class" = lookupS d.lower c%"class" := by rw [hd.1]; rfl
    rw [e]
    rcases hc : d.cls with _ | ts
    · dsimp only
      simp only [hc]
      refine Ok.bind (splitTokens_ok he _) ?_
      rintro ts rfl
      refine Ok.bind (setAttrs_ok n _ ?_) fun _ _ => Ok.pure rfl
      refine ⟨hd.1, fun ts h1 => by cases h1; rfl, ?_⟩
      intro a ts h1
      by_cases hv : (lookupS d.lower c%"class").getD [] = []
      · dsimp only at h1
        rw [if_pos hv] at h1
        exact hd.2.2 a ts h1
      · dsimp only at h1
        rw [if_neg hv, fput] at h1
        by_cases ha : a = c%"class"
        · rw [if_pos ha] at h1
          cases h1
          cases hl : lookupS d.lower c%"class" with
          | none => rw [hl] at hv; exact absurd rfl hv
          | some v => exact ⟨v, by rw [ha]; exact hl, rfl⟩
        · rw [if_neg ha] at h1
          exact hd.2.2 a ts h1
    · simp only [hc]
      exact Ok.pure (hd.2.1 ts hc)

theorem attrTokens_ok (he : Budget E) (n : Nat) (name v : Str) (hv : attrVal U h n name = some v) : Ok (SelInv U h S D sat) (attrTokens U h n name v)
    (fun r => r = splitWs U.isSpace [] v) E := by
  unfold attrTokens
  by_cases h0 : v = []
  · rw [if_pos h0]; exact Ok.pure (by rw [h0]; rfl)
  · rw [if_neg h0]
    refine Ok.bind (nodeAttrs_ok he n) ?_
    rintro r (⟨rfl, h1⟩ | ⟨d, rfl, hd⟩)
    · simp [attrVal, h1, attrsLower, lookupS] at hv
    · have hl : lookupS d.lower name = some v := by rw [hd.1]; exact hv
      rcases hc : d.toks name with _ | ts
      · simp only [hc]
        refine Ok.bind (splitTokens_ok he _) ?_
        rintro ts rfl
        refine Ok.bind (setAttrs_ok n _ ?_) fun _ _ => Ok.pure rfl
        refine ⟨hd.1, ?_, ?_⟩
        · intro ts h1
          dsimp only at h1 ⊢
          by_cases hn : name = c%"class"
          · rw [if_pos hn] at h1
            cases h1
            rw [← hn, hl]; rfl
          · rw [if_neg hn] at h1
            exact hd.2.1 ts h1
        · intro a ts h1
          dsimp only [fput] at h1 ⊢
          by_cases ha : a = name
          · rw [if_pos ha] at h1
            cases h1
            exact ⟨v, by rw [ha]; exact hl, rfl⟩
          · rw [if_neg ha] at h1
            exact hd.2.2 a ts h1
      · simp only [hc]
        obtain ⟨w, h1, h2⟩ := hd.2.2 name ts hc
        rw [hl] at h1
        cases h1
        exact Ok.pure h2

theorem nthExpr_ok (e : Option Str) : Ok (SelInv U h S D sat) (nthExpr U e) (fun r => r = parseNth U e) E := by
  refine Ok.bind (Q := fun r => ∀ d, r = some d → d = parseNth U e) (Ok.get fun c i d hd => i.nth e d hd) ?_
  rintro (_ | d) hd
  · refine Ok.bind (Q := fun _ => True) (Ok.set ?_ trivial) fun _ _ => Ok.pure rfl
    intro c i
    refine ⟨i.parent, i.attrs, ?_, i.text, i.anc, i.prev⟩
    intro q d hq
    dsimp only [fput] at hq
    by_cases hqe : q = e
    · subst hqe; rw [if_pos rfl] at hq; cases hq; rfl
    · rw [if_neg hqe] at hq; exact i.nth q d hq
  · exact Ok.pure (hd d rfl)

end JH
