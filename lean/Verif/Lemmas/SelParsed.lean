import Verif.Lemmas.SelSat
import Verif.Lemmas.SelFresh
/-! What the parser produces. -/
namespace JH
open Spec

variable {U : Uni} {lim : SelLimits}

/-! ### Tokens -/

/-- Token lists as the tokenizer produces them: names of attributes and pseudo-classes stand only where they belong, other names are lower case. -/
inductive WellTok (U : Uni) : List STok → Prop
  | nil : WellTok U []
  | eof {l : List STok} : WellTok U l → WellTok U (.eof :: l)
  | tag {n : Str} {l : List STok} : U.lower n = n → WellTok U l → WellTok U (.tag n :: l)
  | id {n : Str} {l : List STok} : WellTok U l → WellTok U (.id n :: l)
  | cls {n : Str} {l : List STok} : WellTok U l → WellTok U (.cls n :: l)
  | universal {l : List STok} : WellTok U l → WellTok U (.universal :: l)
  | comb {c : Comb} {l : List STok} : WellTok U l → WellTok U (.comb c :: l)
  | comma {l : List STok} : WellTok U l → WellTok U (.comma :: l)
  | attr {n : Str} {l : List STok} : WellTok U l → WellTok U (.attrStart :: .tag n :: .attrEnd :: l)
  | attrOp {n o v : Str} {l : List STok} : WellTok U l → WellTok U (.attrStart :: .tag n :: .attrOp o :: .string v :: .attrEnd :: l)
  | pseudo {n : Str} {l : List STok} : WellTok U l → WellTok U (.colon :: .tag n :: l)
  | pseudoNil {n : Str} {l : List STok} : WellTok U l → WellTok U (.colon :: .tag n :: .parenOpen :: .parenClose :: l)
  | pseudoArg {n a : Str} {l : List STok} : WellTok U l → WellTok U (.colon :: .tag n :: .parenOpen :: .string a :: .parenClose :: l)

theorem WellTok.append {l m : List STok} (hl : WellTok U l) (hm : WellTok U m) : WellTok U (l ++ m) := by
  induction hl with
  | nil => exact hm
  | eof _ ih => exact .eof ih
  | tag h _ ih => exact .tag h ih
  | id _ ih => exact .id ih
  | cls _ ih => exact .cls ih
  | universal _ ih => exact .universal ih
  | comb _ ih => exact .comb ih
  | comma _ ih => exact .comma ih
  | attr _ ih => exact .attr ih
  | attrOp _ ih => exact .attrOp ih
  | pseudo _ ih => exact .pseudo ih
  | pseudoNil _ ih => exact .pseudoNil ih
  | pseudoArg _ ih => exact .pseudoArg ih

theorem tokAttrValue_well {n o s r : Str} {ts : List STok} (h : tokAttrValue n o s = some (ts, r)) : WellTok U ts := by
  unfold tokAttrValue at h
  dsimp only at h
  split at h
  · cases h
  · split at h
    · cases h; exact .attrOp .nil
    · cases h

theorem tokAttr_well {s r : Str} {ts : List STok} (h : tokAttr U s = some (ts, r)) : WellTok U ts := by
  unfold tokAttr at h
  dsimp only at h
  split at h
  · cases h
  · split at h
    · cases h
    · split at h
      · cases h; exact .attr .nil
      · split at h
        · exact tokAttrValue_well h
        · split at h
          · split at h
            · exact tokAttrValue_well h
            · cases h
          · cases h

theorem tokPseudo_well {s r : Str} {ts : List STok} (h : tokPseudo U s = some (ts, r)) : WellTok U ts := by
  unfold tokPseudo at h
  dsimp only at h
  split at h
  · cases h
  · split at h
    · split at h
      · cases h
        split
        · exact .pseudoNil .nil
        · exact .pseudoArg .nil
      · cases h
    · cases h; exact .pseudo .nil

theorem tokMain_well {c : Char} {s r : Str} {ts : List STok} (h : tokMain U c s = some (ts, r)) : WellTok U ts := by
  unfold tokMain at h
  dsimp only at h
  split at h
  · cases h; exact .universal .nil
  split at h
  · split at h
    · cases h
    · cases h; exact .id .nil
  split at h
  · split at h
    · cases h
    · cases h; exact .cls .nil
  split at h
  · exact tokAttr_well h
  split at h
  · cases h; exact .comma .nil
  split at h
  · exact tokPseudo_well h
  split at h
  · cases h; exact .tag (U.lower_idem _) .nil
  · cases h

theorem tokStep_well {p ne : Bool} {c : Char} {s : Str} {r : List STok × Bool × Str} (h : tokStep U p ne c s = some r) : WellTok U r.1 := by
  unfold tokStep at h
  split at h
  · cases h; exact .nil
  · split at h
    · cases h; exact .comb .nil
    · rw [Option.map_eq_some_iff] at h
      obtain ⟨⟨ts, r'⟩, h1, rfl⟩ := h
      refine WellTok.append ?_ (tokMain_well h1)
      split
      · exact .comb .nil
      · exact .nil

theorem tokLoop_well : ∀ (f : Nat) (p ne : Bool) (s : Str) (ts : List STok), tokLoop U f p ne s = some ts → WellTok U ts := by
  intro f
  induction f with
  | zero => intro p ne s ts h; cases h
  | succ f ih =>
    intro p ne s ts h
    cases s with
    | nil => cases h; exact .eof .nil
    | cons c cs =>
      rw [tokLoop] at h
      cases hs : tokStep U p ne c cs with
      | none => rw [hs] at h; cases h
      | some r =>
        rw [hs] at h
        obtain ⟨t1, p1, r1⟩ := r
        dsimp only at h
        rw [Option.map_eq_some_iff] at h
        obtain ⟨t2, h2, rfl⟩ := h
        exact WellTok.append (tokStep_well hs) (ih _ _ _ _ h2)

/-! ### Keys -/

/-- Different keys, all in a range. -/
structure Keyed (lo hi : Nat) (l : List Compound) : Prop where
  le : lo ≤ hi
  nodup : (l.map Compound.key).Nodup
  range : ∀ C ∈ l, lo ≤ C.key ∧ C.key < hi

theorem keyed_nil {lo hi : Nat} (h : lo ≤ hi) : Keyed lo hi [] := ⟨h, by simp, nofun⟩

theorem keyed_append {lo mid hi : Nat} {a b : List Compound} (h1 : Keyed lo mid a) (h2 : Keyed mid hi b) : Keyed lo hi (a ++ b) := by
  refine ⟨by have := h1.le; have := h2.le; omega, ?_, ?_⟩
  · rw [List.map_append, List.nodup_append]
    refine ⟨h1.nodup, h2.nodup, ?_⟩
    intro x hx y hy e
    obtain ⟨C, hC, rfl⟩ := List.mem_map.1 hx
    obtain ⟨D, hD, rfl⟩ := List.mem_map.1 hy
    have := h1.range C hC
    have := h2.range D hD
    omega
  · intro C hC
    rcases List.mem_append.1 hC with hC | hC
    · have := h1.range C hC; have := h2.le; omega
    · have := h2.range C hC; have := h1.le; omega

theorem keyed_more {lo hi hi' : Nat} {a : List Compound} (h1 : Keyed lo hi a) (h2 : hi ≤ hi') : Keyed lo hi' a := by
  have := keyed_append h1 (keyed_nil h2)
  rwa [List.append_nil] at this

/-! ### Parsing -/

/-- What is known of every compound. -/
structure SaneC (U : Uni) (lim : SelLimits) (C : Compound) : Prop where
  ne : C.simples ≠ []
  le : C.simples.length ≤ lim.maxCompound
  low : ∀ t, Simple.tag t ∈ C.simples → U.lower t = t

/-- What is known of the selectors nested directly in a list of simple selectors. -/
def InnerOk (Q : Sel → Prop) (l : List Simple) : Prop :=
  ∀ name arg i, Simple.pseudo name arg i ∈ l → (i = [] ∧ ¬ (name = c%"not" ∧ arg.getD [] ≠ [])) ∨ Q i

/-- What the parser of nested selectors does. -/
def SubOk (U : Uni) (lim : SelLimits) (Q : Sel → Prop) (sub : SubParser) : Prop :=
  ∀ s lo i hi, sub s lo = some (i, hi) → Keyed lo hi (selParts i) ∧ (∀ C ∈ selParts i, SaneC U lim C) ∧ Q i

variable {Q : Sel → Prop} {sub : SubParser}

/-- One simple selector. -/
structure GotS (U : Uni) (lim : SelLimits) (Q : Sel → Prop) (lo : Nat) (s : Simple) (hi : Nat) (r : List STok) : Prop where
  keyed : Keyed lo hi (simpleParts s)
  sane : ∀ C ∈ simpleParts s, SaneC U lim C
  low : ∀ t, s = .tag t → U.lower t = t
  inner : ∀ name arg i, s = .pseudo name arg i → (i = [] ∧ ¬ (name = c%"not" ∧ arg.getD [] ≠ [])) ∨ Q i
  rest : WellTok U r

theorem gotS_leaf {lo : Nat} {s : Simple} {r : List STok} (hp : simpleParts s = []) (hl : ∀ t, s = .tag t → U.lower t = t)
    (hi : ∀ name arg i, s = .pseudo name arg i → i = [] ∧ ¬ (name = c%"not" ∧ arg.getD [] ≠ [])) (hr : WellTok U r) : GotS U lim Q lo s lo r :=
  ⟨by rw [hp]; exact keyed_nil (Nat.le_refl _), by rw [hp]; nofun, hl, fun n a i e => .inl (hi n a i e), hr⟩

theorem parseArg_got (hs : SubOk U lim Q sub) {lo hi : Nat} {name : Str} {arg : Option Str} {r r' : List STok} {s : Simple} (hr : WellTok U r)
    (h : parseArg sub lo name arg r = .got s hi r') : GotS U lim Q lo s hi r' := by
  unfold parseArg at h
  cases arg with
  | none => cases h; exact gotS_leaf rfl nofun (fun _ _ _ e => by cases e; exact ⟨rfl, fun hx => hx.2 rfl⟩) hr
  | some a =>
    dsimp only at h
    split at h
    · cases hx : sub a lo with
      | none => rw [hx] at h; cases h
      | some ih =>
        obtain ⟨i, hi'⟩ := ih
        rw [hx] at h
        cases h
        obtain ⟨h1, h2, h3⟩ := hs a lo i _ hx
        exact ⟨by rw [simpleParts]; exact h1, by rw [simpleParts]; exact h2, nofun, fun _ _ _ e => by cases e; exact .inr h3, hr⟩
    · rename_i hn
      cases h; exact gotS_leaf rfl nofun (fun _ _ _ e => by cases e; exact ⟨rfl, hn⟩) hr

theorem parseSimple_got (hs : SubOk U lim Q sub) {lo hi : Nat} {l r : List STok} {s : Simple} (hl : WellTok U l)
    (h : parseSimple U sub lo l = .got s hi r) : GotS U lim Q lo s hi r := by
  cases hl with
  | nil => cases h
  | eof _ => cases h
  | tag h1 h2 => cases h; exact gotS_leaf rfl (fun t e => by cases e; exact h1) nofun h2
  | id h2 => cases h; exact gotS_leaf rfl nofun nofun h2
  | cls h2 => cases h; exact gotS_leaf rfl nofun nofun h2
  | universal h2 => cases h; exact gotS_leaf rfl nofun nofun h2
  | comb _ => cases h
  | comma _ => cases h
  | attr h2 => cases h; exact gotS_leaf rfl nofun nofun h2
  | attrOp h2 => cases h; exact gotS_leaf rfl nofun nofun h2
  | pseudo h2 =>
    rename_i n l
    have hne : ∀ l', l ≠ .parenOpen :: l' := by rintro l' rfl; cases h2
    have : parseSimple U sub lo (.colon :: .tag n :: l) = .got (.pseudo (U.lower n) none []) lo l := by
      rw [parseSimple, parsePseudo]
      · rintro a r rfl; exact absurd rfl (hne _)
      · rintro r rfl; exact absurd rfl (hne _)
      · rintro r rfl; exact absurd rfl (hne _)
    rw [this] at h
    cases h
    exact gotS_leaf rfl nofun (fun _ _ _ e => by cases e; exact ⟨rfl, fun hx => hx.2 rfl⟩) h2
  | pseudoNil h2 =>
    rw [parseSimple.eq_def] at h; dsimp only at h; rw [parsePseudo.eq_def] at h; dsimp only at h
    exact parseArg_got hs h2 h
  | pseudoArg h2 =>
    rw [parseSimple.eq_def] at h; dsimp only at h; rw [parsePseudo.eq_def] at h; dsimp only at h
    exact parseArg_got hs h2 h

/-- A list of simple selectors so far. -/
structure GotL (U : Uni) (lim : SelLimits) (Q : Sel → Prop) (lo : Nat) (l : List Simple) (hi : Nat) : Prop where
  keyed : Keyed lo hi (simplesParts l)
  sane : ∀ C ∈ simplesParts l, SaneC U lim C
  low : ∀ t, Simple.tag t ∈ l → U.lower t = t
  le : l.length ≤ lim.maxCompound
  inner : InnerOk Q l

theorem simplesParts_append (l m : List Simple) : simplesParts (l ++ m) = simplesParts l ++ simplesParts m := by
  induction l with
  | nil => rfl
  | cons s l ih => rw [List.cons_append, simplesParts, ih, simplesParts, List.append_assoc]

theorem gotL_snoc {lo mid hi : Nat} {l : List Simple} {s : Simple} {r : List STok} (hl : GotL U lim Q lo l mid) (hs : GotS U lim Q mid s hi r)
    (hm : l.length < lim.maxCompound) : GotL U lim Q lo (l ++ [s]) hi := by
  have e : simplesParts (l ++ [s]) = simplesParts l ++ simpleParts s := by
    rw [simplesParts_append, simplesParts, simplesParts, List.append_nil]
  refine ⟨?_, ?_, ?_, ?_, ?_⟩
  · rw [e]; exact keyed_append hl.keyed hs.keyed
  · rw [e]
    intro C hC
    rcases List.mem_append.1 hC with hC | hC
    · exact hl.sane C hC
    · exact hs.sane C hC
  · intro t ht
    rcases List.mem_append.1 ht with ht | ht
    · exact hl.low t ht
    · exact hs.low t (List.mem_singleton.1 ht).symm
  · rw [List.length_append]; simp; omega
  · intro n a i hi
    rcases List.mem_append.1 hi with hi | hi
    · exact hl.inner n a i hi
    · exact hs.inner n a i (List.mem_singleton.1 hi).symm

theorem gotL_more {lo hi hi' : Nat} {l : List Simple} (hl : GotL U lim Q lo l hi) (hh : hi ≤ hi') : GotL U lim Q lo l hi' :=
  ⟨keyed_more hl.keyed hh, hl.sane, hl.low, hl.le, hl.inner⟩

theorem parseSimples_got (hs : SubOk U lim Q sub) : ∀ (f : Nat) (acc : List Simple) (lo mid : Nat) (l : List STok), GotL U lim Q lo acc mid → WellTok U l →
    ∀ out hi r, parseSimples U lim sub f acc mid l = some (out, hi, r) → GotL U lim Q lo out hi ∧ WellTok U r ∧ mid ≤ hi := by
  intro f
  induction f with
  | zero => intro acc lo mid l _ _ out hi r h; cases h
  | succ f ih =>
    intro acc lo mid l hacc hl out hi r h
    rw [parseSimples] at h
    cases hp : parseSimple U sub mid l with
    | stop => rw [hp] at h; cases h; exact ⟨hacc, hl, Nat.le_refl _⟩
    | bad => rw [hp] at h; cases h
    | got s nx r' =>
      rw [hp] at h
      dsimp only at h
      have hg := parseSimple_got hs hl hp
      split at h
      · obtain ⟨h1, h2, h3⟩ := ih acc lo nx r' (gotL_more hacc hg.keyed.le) hg.rest out hi r h
        exact ⟨h1, h2, by have := hg.keyed.le; omega⟩
      · split at h
        · cases h
        · obtain ⟨h1, h2, h3⟩ := ih _ lo nx r' (gotL_snoc hacc hg (by omega)) hg.rest out hi r h
          exact ⟨h1, h2, by have := hg.keyed.le; omega⟩

/-- A compound. -/
structure GotC (U : Uni) (lim : SelLimits) (Q : Sel → Prop) (lo : Nat) (C : Compound) (hi : Nat) : Prop where
  keyed : Keyed lo hi (compoundParts C)
  sane : ∀ D ∈ compoundParts C, SaneC U lim D
  inner : InnerOk Q C.simples

theorem parseCompound_got (hs : SubOk U lim Q sub) {lo hi : Nat} {l r : List STok} {o : Option Compound} (hl : WellTok U l)
    (h : parseCompound U lim sub lo l = some (o, hi, r)) : WellTok U r ∧ lo ≤ hi ∧ ∀ C, o = some C → GotC U lim Q lo C hi := by
  unfold parseCompound at h
  have h0 : GotL U lim Q lo [] lo := ⟨keyed_nil (Nat.le_refl _), nofun, nofun, by simp, nofun⟩
  cases hp : parseSimples U lim sub (l.length + 1) [] lo l with
  | none => rw [hp] at h; cases h
  | some x =>
    obtain ⟨ss, nx, r'⟩ := x
    obtain ⟨h1, h2, h3⟩ := parseSimples_got hs _ _ _ _ _ h0 hl _ _ _ hp
    rw [hp] at h
    cases ss with
    | nil => cases h; exact ⟨h2, h3, nofun⟩
    | cons s ss =>
      cases h
      refine ⟨h2, by omega, ?_⟩
      intro C hC
      cases hC
      refine ⟨?_, ?_, h1.inner⟩
      · rw [compoundParts]
        refine ⟨by omega, ?_, ?_⟩
        · rw [List.map_cons, List.nodup_cons]
          refine ⟨?_, h1.keyed.nodup⟩
          intro hm
          obtain ⟨D, hD, e⟩ := List.mem_map.1 hm
          have := (h1.keyed.range D hD).2
          rw [e] at this
          exact absurd this (Nat.lt_irrefl _)
        · intro D hD
          rcases List.mem_cons.1 hD with rfl | hD
          · exact ⟨h3, Nat.lt_succ_self _⟩
          · have := h1.keyed.range D hD; omega
      · rw [compoundParts]
        intro D hD
        rcases List.mem_cons.1 hD with rfl | hD
        · exact ⟨by simp [Compound.simples], h1.le, h1.low⟩
        · exact h1.sane D hD

/-- A complex selector. -/
structure GotX (U : Uni) (lim : SelLimits) (Q : Sel → Prop) (lo : Nat) (x : Complex) (hi : Nat) : Prop where
  keyed : Keyed lo hi (complexParts x)
  sane : ∀ D ∈ complexParts x, SaneC U lim D
  inner : ∀ C, PartOf C x → InnerOk Q C.simples
  le : partCount x ≤ max 1 lim.maxParts

theorem length_partCount (x : Complex) : x.length = partCount x := by
  induction x using complex_ind with
  | h1 c => rfl
  | h2 l o c ih => rw [Complex.length, partCount, ih]

theorem parseParts_got (hs : SubOk U lim Q sub) : ∀ (f : Nat) (x : Complex) (lo mid : Nat) (l : List STok), GotX U lim Q lo x mid → WellTok U l →
    ∀ y hi r, parseParts U lim sub f x mid l = some (y, hi, r) → GotX U lim Q lo y hi ∧ WellTok U r ∧ mid ≤ hi := by
  intro f
  induction f with
  | zero => intro x lo mid l _ _ y hi r h; cases h
  | succ f ih =>
    intro x lo mid l hx hl y hi r h
    rw [parseParts.eq_def] at h
    dsimp only at h
    split at h
    · rename_i k r1
      have hl1 : WellTok U r1 := by cases hl; assumption
      cases hc : parseCompound U lim sub mid r1 with
      | none => rw [hc] at h; cases h
      | some z =>
        obtain ⟨o, nx, r2⟩ := z
        rw [hc] at h
        obtain ⟨h1, h2, h3⟩ := parseCompound_got hs hl1 hc
        cases o with
        | none => cases h
        | some C =>
          dsimp only at h
          have hC := h3 C rfl
          split at h
          · cases h
          · rename_i hlen
            have hy : GotX U lim Q lo (.comb x k C) nx := by
              refine ⟨?_, ?_, ?_, ?_⟩
              · rw [complexParts]; exact keyed_append hx.keyed hC.keyed
              · rw [complexParts]
                intro D hD
                rcases List.mem_append.1 hD with hD | hD
                · exact hx.sane D hD
                · exact hC.sane D hD
              · intro D hD
                cases hD with
                | last => exact hC.inner
                | left hD => exact hx.inner D hD
              · rw [partCount]
                rw [length_partCount] at hlen
                omega
            obtain ⟨h4, h5, h6⟩ := ih _ lo nx r2 hy h1 y hi r h
            exact ⟨h4, h5, by omega⟩
    · cases h; exact ⟨hx, hl, Nat.le_refl _⟩

theorem parseComplex_got (hs : SubOk U lim Q sub) {lo hi : Nat} {l r : List STok} {o : Option Complex} (hl : WellTok U l)
    (h : parseComplex U lim sub lo l = some (o, hi, r)) : WellTok U r ∧ lo ≤ hi ∧ ∀ x, o = some x → GotX U lim Q lo x hi := by
  unfold parseComplex at h
  cases hc : parseCompound U lim sub lo l with
  | none => rw [hc] at h; cases h
  | some z =>
    obtain ⟨o', nx, r2⟩ := z
    rw [hc] at h
    obtain ⟨h1, h2, h3⟩ := parseCompound_got hs hl hc
    cases o' with
    | none => cases h; exact ⟨h1, h2, nofun⟩
    | some C =>
      dsimp only at h
      rw [Option.map_eq_some_iff] at h
      obtain ⟨⟨y, hi', r'⟩, h4, h5⟩ := h
      cases h5
      have hC := h3 C rfl
      have hx : GotX U lim Q lo (.one C) nx := ⟨hC.keyed, hC.sane, fun D hD => by cases hD; exact hC.inner, by simp [partCount]; omega⟩
      obtain ⟨h6, h7, h8⟩ := parseParts_got hs _ _ _ _ _ hx h1 _ _ _ h4
      exact ⟨h7, by have := hx.keyed.le; omega, fun x e => by cases e; exact h6⟩

/-- A list. -/
structure GotSel (U : Uni) (lim : SelLimits) (Q : Sel → Prop) (lo : Nat) (l : Sel) (hi : Nat) : Prop where
  keyed : Keyed lo hi (selParts l)
  sane : ∀ D ∈ selParts l, SaneC U lim D
  inner : ∀ x ∈ l, ∀ C, PartOf C x → InnerOk Q C.simples
  parts : ∀ x ∈ l, partCount x ≤ max 1 lim.maxParts
  le : l.length ≤ max 1 lim.maxListItems
  ne : l ≠ []

theorem selParts_append (l m : Sel) : selParts (l ++ m) = selParts l ++ selParts m := by
  induction l with
  | nil => rfl
  | cons s l ih => rw [List.cons_append, selParts, ih, selParts, List.append_assoc]

theorem parseList_got (hs : SubOk U lim Q sub) : ∀ (f : Nat) (acc : Sel) (lo mid : Nat) (l : List STok), GotSel U lim Q lo acc mid → WellTok U l →
    ∀ out hi, parseList U lim sub f acc mid l = some (out, hi) → GotSel U lim Q lo out hi := by
  intro f
  induction f with
  | zero => intro acc lo mid l _ _ out hi h; cases h
  | succ f ih =>
    intro acc lo mid l hacc hl out hi h
    rw [parseList.eq_def] at h
    dsimp only at h
    split at h
    · rename_i r
      have hl1 : WellTok U r := by cases hl; assumption
      cases hc : parseComplex U lim sub mid r with
      | none => rw [hc] at h; cases h
      | some z =>
        obtain ⟨o, nx, r2⟩ := z
        rw [hc] at h
        obtain ⟨h1, h2, h3⟩ := parseComplex_got hs hl1 hc
        have more : GotSel U lim Q lo acc nx := ⟨keyed_more hacc.keyed h2, hacc.sane, hacc.inner, hacc.parts, hacc.le, hacc.ne⟩
        cases o with
        | none => exact ih acc lo nx r2 more h1 out hi h
        | some x =>
          have hx := h3 x rfl
          dsimp only at h
          split at h
          · exact ih acc lo nx r2 more h1 out hi h
          · split at h
            · cases h
            · rename_i hlen
              have e : selParts (acc ++ [x]) = selParts acc ++ complexParts x := by rw [selParts_append, selParts, selParts, List.append_nil]
              refine ih (acc ++ [x]) lo nx r2 ⟨?_, ?_, ?_, ?_, ?_, by simp⟩ h1 out hi h
              · rw [e]; exact keyed_append hacc.keyed hx.keyed
              · rw [e]
                intro D hD
                rcases List.mem_append.1 hD with hD | hD
                · exact hacc.sane D hD
                · exact hx.sane D hD
              · intro y hy
                rcases List.mem_append.1 hy with hy | hy
                · exact hacc.inner y hy
                · rw [List.mem_singleton.1 hy]; exact hx.inner
              · intro y hy
                rcases List.mem_append.1 hy with hy | hy
                · exact hacc.parts y hy
                · rw [List.mem_singleton.1 hy]; exact hx.le
              · rw [List.length_append]; simp; omega
    · cases h; exact hacc
    · cases h; exact hacc
    · cases h

theorem parseTokens_got (hs : SubOk U lim Q sub) {lo hi : Nat} {l : List STok} {out : Sel} (hl : WellTok U l)
    (h : parseTokens U lim sub lo l = some (out, hi)) : GotSel U lim Q lo out hi := by
  unfold parseTokens at h
  cases hc : parseComplex U lim sub lo l with
  | none => rw [hc] at h; cases h
  | some z =>
    obtain ⟨o, nx, r2⟩ := z
    rw [hc] at h
    obtain ⟨h1, h2, h3⟩ := parseComplex_got hs hl hc
    cases o with
    | none => cases h
    | some x =>
      have hx := h3 x rfl
      have e : selParts [x] = complexParts x := by rw [selParts, selParts, List.append_nil]
      refine parseList_got hs _ [x] lo nx r2 ⟨by rw [e]; exact hx.keyed, by rw [e]; exact hx.sane, ?_, ?_, by simp; omega, by simp⟩ h1 _ _ h
      · intro y hy; rw [List.mem_singleton.1 hy]; exact hx.inner
      · intro y hy; rw [List.mem_singleton.1 hy]; exact hx.le

/-! ### Levels -/

/-- The limits of one list. -/
def LevelOk (lim : SelLimits) (t : Sel) : Prop :=
  t.length ≤ max 1 lim.maxListItems ∧ ∀ x ∈ t, partCount x ≤ max 1 lim.maxParts ∧ ∀ C, PartOf C x → C.simples.length ≤ lim.maxCompound

/-- All limits, for a selector parsed with `k` levels to go. -/
def LevelsOk (lim : SelLimits) (k : Nat) (sel : Sel) : Prop := ∀ j t, Nested j t sel → t ≠ [] → j < k ∧ LevelOk lim t

theorem levelsOk_of {k : Nat} {lo hi : Nat} {sel : Sel} (hQ : ∀ i, Q i → LevelsOk lim k i) (hg : GotSel U lim Q lo sel hi) : LevelsOk lim (k + 1) sel := by
  intro j t ht hne
  cases ht with
  | here =>
    refine ⟨by omega, hg.le, fun x hx => ⟨hg.parts x hx, fun C hC => ?_⟩⟩
    exact (hg.sane C (selParts_mem hx C (partOf_simples hC C (self_part C)))).le
  | down hx hC hs ht =>
    rcases hg.inner _ hx _ hC _ _ _ hs with ⟨rfl, _⟩ | hq
    · cases ht with
      | here => exact absurd rfl hne
      | down hx _ _ _ => cases hx
    · have := hQ _ hq _ _ ht hne
      exact ⟨by omega, this.2⟩

theorem nest_of {k : Nat} {lo hi : Nat} {sel : Sel} (hQ : ∀ i, Q i → selNest i < k) (hg : GotSel U lim Q lo sel hi) : selNest sel < k + 1 := by
  have simples : ∀ l, InnerOk Q l → simplesNest l < k + 1 := by
    intro l
    induction l with
    | nil => intro _; rw [simplesNest]; omega
    | cons s l ih =>
      intro hl
      have := ih fun name arg i hi => hl name arg i (by simp [hi])
      rw [simplesNest]
      have h1 : simpleNest s < k + 1 := by
        cases s with
        | pseudo name arg i =>
          rw [simpleNest]
          split
          · rename_i hn
            rcases hl name arg i (by simp) with ⟨_, hx⟩ | hq
            · exact absurd hn hx
            · have := hQ i hq; omega
          · omega
        | _ => simp [simpleNest]
      omega
  have compound : ∀ C : Compound, InnerOk Q C.simples → compoundNest C < k + 1 := fun ⟨_, l⟩ hC => by rw [compoundNest]; exact simples l hC
  have complex : ∀ x : Complex, (∀ C, PartOf C x → InnerOk Q C.simples) → complexNest x < k + 1 := by
    intro x
    induction x using complex_ind with
    | h1 c => intro hx; rw [complexNest]; exact compound c (hx c .one)
    | h2 l o c ih =>
      intro hx
      have := ih fun C hC => hx C (.left hC)
      have := compound c (hx c .last)
      rw [complexNest]; omega
  have hi := hg.inner
  clear hg
  induction sel with
  | nil => rw [selNest]; omega
  | cons x l ih =>
    have h1 := complex x (hi x (by simp))
    have h2 := ih fun y hy => hi y (by simp [hy])
    rw [selNest]; omega

/-- What the parser promises. -/
structure Parsed (U : Uni) (lim : SelLimits) (k : Nat) (sel : Sel) : Prop where
  levels : LevelsOk lim k sel
  nest : selNest sel < k
  ne : sel ≠ []

theorem parseSelAt_got : ∀ k, SubOk U lim (Parsed U lim k) (parseSelAt U lim k) := by
  intro k
  induction k with
  | zero => intro s lo i hi h; cases h
  | succ k ih =>
    intro s lo i hi h
    rw [parseSelAt] at h
    cases ht : tokenize U s with
    | none => rw [ht] at h; cases h
    | some l =>
      rw [ht] at h
      have hg := parseTokens_got ih (tokLoop_well _ _ _ _ _ ht) h
      exact ⟨hg.keyed, hg.sane, levelsOk_of (fun i hq => hq.levels) hg, nest_of (fun i hq => hq.nest) hg, hg.ne⟩

/-! ### Consequences -/

theorem parseSelector_got {s : Str} {sel : Sel} (h : parseSelector U lim s = some sel) :
    Parsed U lim (lim.maxParseDepth + 1) sel ∧ (∀ C ∈ selParts sel, SaneC U lim C) ∧ ((selParts sel).map Compound.key).Nodup := by
  unfold parseSelector at h
  dsimp only at h
  split at h
  · cases h
  · split at h
    · cases h
    · rw [Option.map_eq_some_iff] at h
      obtain ⟨⟨sel', hi⟩, h1, rfl⟩ := h
      obtain ⟨h2, h3, h4⟩ := parseSelAt_got _ _ _ _ _ h1
      exact ⟨h4, h3, h2.nodup⟩

theorem parseSelector_length {s : Str} {sel : Sel} (h : parseSelector U lim s = some sel) : (stripP U.isSpace s).length ≤ lim.maxLength := by
  unfold parseSelector at h
  dsimp only at h
  split at h
  · cases h
  · split at h
    · cases h
    · omega

theorem keyInj_of {l : List Compound} (h : (l.map Compound.key).Nodup) : KeyInj (· ∈ l) := by
  induction l with
  | nil => intro C D hC; cases hC
  | cons x l ih =>
    rw [List.map_cons, List.nodup_cons] at h
    intro C D hC hD e
    rcases List.mem_cons.1 hC with h1 | h1
    · rcases List.mem_cons.1 hD with h2 | h2
      · rw [h1, h2]
      · exact absurd (List.mem_map.2 ⟨D, h2, by rw [← e, h1]⟩) h.1
    · rcases List.mem_cons.1 hD with h2 | h2
      · exact absurd (List.mem_map.2 ⟨C, h1, by rw [e, h2]⟩) h.1
      · exact ih h.2 C D h1 h2 e

theorem chainKeys {x : Complex} (h : ((complexParts x).map Compound.key).Nodup) :
    (x.last.key :: leftKeys x).Nodup ∧ ∀ k ∈ x.last.key :: leftKeys x, k ∈ (complexParts x).map Compound.key := by
  induction x using complex_ind with
  | h1 c => exact ⟨by simp [leftKeys], fun k hk => by
      rw [leftKeys, List.mem_singleton] at hk
      rw [hk, complexParts]
      exact List.mem_map.2 ⟨c, self_part c, rfl⟩⟩
  | h2 l o c ih =>
    rw [complexParts, List.map_append, List.nodup_append] at h
    obtain ⟨h1, h2⟩ := ih h.1
    have hc : c.key ∈ (compoundParts c).map Compound.key := List.mem_map.2 ⟨c, self_part c, rfl⟩
    show (c.key :: l.last.key :: leftKeys l).Nodup ∧ ∀ k ∈ c.key :: l.last.key :: leftKeys l, _
    refine ⟨List.nodup_cons.2 ⟨fun hm => h.2.2 _ (h2 _ hm) _ hc rfl, h1⟩, ?_⟩
    intro k hk
    rw [complexParts, List.map_append, List.mem_append]
    rcases List.mem_cons.1 hk with rfl | hk
    · exact .inr hc
    · exact .inl (h2 k hk)

theorem selKeys_nodup {l : Sel} (h : ((selParts l).map Compound.key).Nodup) :
    (selKeys l).Nodup ∧ ∀ k ∈ selKeys l, k ∈ (selParts l).map Compound.key := by
  induction l with
  | nil => exact ⟨by simp [selKeys], fun k hk => by simp [selKeys] at hk⟩
  | cons x l ih =>
    rw [selParts, List.map_append, List.nodup_append] at h
    obtain ⟨h1, h2⟩ := ih h.2.1
    obtain ⟨h3, h4⟩ := chainKeys h.1
    have e : selKeys (x :: l) = leftKeys x ++ selKeys l := rfl
    rw [e, List.nodup_append]
    refine ⟨⟨(List.nodup_cons.1 h3).2, h1, fun a ha b hb => h.2.2 a (h4 a (by simp [ha])) b (h2 b hb)⟩, ?_⟩
    intro k hk
    rw [selParts, List.map_append, List.mem_append]
    rcases List.mem_append.1 hk with hk | hk
    · exact .inl (h4 k (by simp [hk]))
    · exact .inr (h2 k hk)

end JH
