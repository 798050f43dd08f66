import Verif.Lemmas.Graph
/-!
# Lemmas about the depth-first searches
-/
namespace Rez
open Rez.Spec Graph Relation

theorem dep_allKeys {g : Graph} {a b : Str} (h : Dep g a b) : b ∈ g.allKeys := by
  obtain ⟨n, hn, hb⟩ := h
  exact List.mem_append_right _ (List.mem_flatMap.mpr ⟨_, mget_some_mem hn, hb⟩)

theorem key_allKeys {g : Graph} {a : Str} (h : a ∈ mkeys g.nodes) : a ∈ g.allKeys := List.mem_append_left _ h

/-- the number of keys not yet in `V` -/
def fresh (g : Graph) (V : List Str) : Nat := (g.allKeys.filter (· ∉ V)).length

theorem fresh_mono {g : Graph} {V W : List Str} (h : V ⊆ W) : fresh g W ≤ fresh g V := by
  unfold fresh
  induction g.allKeys with
  | nil => simp
  | cons x l ih =>
    by_cases h1 : x ∈ V
    · rw [List.filter_cons_of_neg (by simp [h h1]), List.filter_cons_of_neg (by simp [h1])]; exact ih
    · by_cases h2 : x ∈ W
      · rw [List.filter_cons_of_neg (by simp [h2]), List.filter_cons_of_pos (by simp [h1])]
        simp only [List.length_cons]; omega
      · rw [List.filter_cons_of_pos (by simp [h2]), List.filter_cons_of_pos (by simp [h1])]
        simp only [List.length_cons]; omega

theorem fresh_lt {g : Graph} {V : List Str} {x : Str} (hx : x ∈ g.allKeys) (hV : x ∉ V) : fresh g (x :: V) < fresh g V := by
  unfold fresh
  have hmono : ∀ l : List Str, (l.filter (· ∉ x :: V)).length ≤ (l.filter (· ∉ V)).length := by
    intro l
    induction l with
    | nil => simp
    | cons y l ih =>
      by_cases h1 : y ∈ V
      · rw [List.filter_cons_of_neg (by simp [h1]), List.filter_cons_of_neg (by simp [h1])]; exact ih
      · by_cases h2 : y = x
        · rw [List.filter_cons_of_neg (by simp [h2]), List.filter_cons_of_pos (by simp [h1])]
          simp only [List.length_cons]; omega
        · rw [List.filter_cons_of_pos (by simp [h1, h2]), List.filter_cons_of_pos (by simp [h1])]
          simp only [List.length_cons]; omega
  revert hx
  induction g.allKeys with
  | nil => intro h; cases h
  | cons y l ih =>
    intro hx
    by_cases h2 : y = x
    · subst h2
      rw [List.filter_cons_of_neg (by simp), List.filter_cons_of_pos (by simp [hV])]
      have := hmono l
      simp only [List.length_cons]; omega
    · have hx' : x ∈ l := by
        rcases List.mem_cons.mp hx with h | h
        · exact absurd h.symm h2
        · exact h
      have ih := ih hx'
      by_cases h1 : y ∈ V
      · rw [List.filter_cons_of_neg (by simp [h1]), List.filter_cons_of_neg (by simp [h1])]; exact ih
      · rw [List.filter_cons_of_pos (by simp [h1, h2]), List.filter_cons_of_pos (by simp [h1])]
        simp only [List.length_cons]; omega

theorem fresh_le (g : Graph) (V : List Str) : fresh g V ≤ g.allKeys.length := List.length_filter_le _ _

/-! ## Reachability -/

/-- What a search from `k` with visited set `V` establishes. -/
structure Reached (g : Graph) (k : Str) (V V' : List Str) : Prop where
  grow : V ⊆ V'
  sound : ∀ x ∈ V', x ∈ V ∨ TransGen (Dep g) k x
  closed : ∀ x ∈ V', x ∉ V → ∀ y, Dep g x y → y ∈ V'
  deps : ∀ y, Dep g k y → y ∈ V'
  nodup : V.Nodup → V'.Nodup

theorem dfsReachable_spec (g : Graph) (fuel : Nat) (k : Str) (V : List Str) (hf : fresh g V < fuel) :
    Reached g k V (g.dfsReachable fuel k V) := by
  induction fuel generalizing k V with
  | zero => omega
  | succ fuel ih =>
    rw [dfsReachable]
    -- over the list of dependencies
    have key : ∀ (ds : List Str) (W : List Str), (∀ d ∈ ds, Dep g k d) → fresh g W < fuel + 1 →
        let W' := ds.foldl (fun v d => if d ∈ v then v else dfsReachable g fuel d (d :: v)) W
        W ⊆ W' ∧ (∀ x ∈ W', x ∈ W ∨ TransGen (Dep g) k x) ∧
          (∀ x ∈ W', x ∉ W → ∀ y, Dep g x y → y ∈ W') ∧ (∀ d ∈ ds, d ∈ W') ∧ (W.Nodup → W'.Nodup) := by
      intro ds
      induction ds with
      | nil =>
        intro W _ _
        exact ⟨List.Subset.refl _, fun x hx => .inl hx, fun x hx hx' => absurd hx hx', by simp, id⟩
      | cons d ds ihd =>
        intro W hds hW
        have hkd := hds d (by simp)
        simp only [List.foldl_cons]
        by_cases hd : d ∈ W
        · rw [if_pos hd]
          obtain ⟨h1, h2, h3, h4, h5⟩ := ihd W (fun x hx => hds x (by simp [hx])) hW
          refine ⟨h1, h2, h3, ?_, h5⟩
          intro x hx
          rcases List.mem_cons.mp hx with rfl | hx
          · exact h1 hd
          · exact h4 x hx
        · rw [if_neg hd]
          have hlt := fresh_lt (dep_allKeys hkd) hd
          have hr := ih d (d :: W) (by omega)
          obtain ⟨W1, hW1⟩ : ∃ W1, W1 = g.dfsReachable fuel d (d :: W) := ⟨_, rfl⟩
          rw [← hW1] at hr ⊢
          have hsub : W ⊆ W1 := fun x hx => hr.grow (List.mem_cons_of_mem _ hx)
          obtain ⟨h1, h2, h3, h4, h5⟩ := ihd W1 (fun x hx => hds x (by simp [hx]))
            (Nat.lt_of_le_of_lt (fresh_mono hsub) hW)
          refine ⟨fun x hx => h1 (hsub hx), ?_, ?_, ?_, ?_⟩
          · intro x hx
            rcases h2 x hx with hx | hx
            · rcases hr.sound x hx with hx | hx
              · rcases List.mem_cons.mp hx with rfl | hx
                · exact .inr (TransGen.single hkd)
                · exact .inl hx
              · exact .inr (TransGen.head hkd hx)
            · exact .inr hx
          · intro x hx hxW y hxy
            by_cases hx1 : x ∈ W1
            · by_cases hxd : x = d
              · subst hxd; exact h1 (hr.deps y hxy)
              · exact h1 (hr.closed x hx1 (by simp [hxd, hxW]) y hxy)
            · exact h3 x hx hx1 y hxy
          · intro x hx
            rcases List.mem_cons.mp hx with rfl | hx
            · exact h1 (hr.grow (by simp))
            · exact h4 x hx
          · intro hn
            exact h5 (hr.nodup (List.nodup_cons.mpr ⟨hd, hn⟩))
    obtain ⟨h1, h2, h3, h4, h5⟩ := key (g.depsOf k) V (fun d hd => depsOf_mem.mp hd) hf
    exact ⟨h1, h2, h3, fun y hy => h4 y (depsOf_mem.mpr hy), h5⟩

theorem accessibleFrom_iff (g : Graph) (k x : Str) : x ∈ g.accessibleFrom k ↔ ReflTransGen (Dep g) k x := by
  have hr := dfsReachable_spec g (g.allKeys.length + 1) k [] (Nat.lt_succ_of_le (fresh_le g []))
  unfold accessibleFrom
  rw [mem_sadd]
  constructor
  · rintro (rfl | hx)
    · exact ReflTransGen.refl
    · rcases hr.sound x hx with hx | hx
      · cases hx
      · exact hx.to_reflTransGen
  · intro h
    rw [reflTransGen_iff_eq_or_transGen] at h
    rcases h with h | h
    · exact .inl h
    · right
      induction h with
      | single h => exact hr.deps _ h
      | tail _ h ih => exact hr.closed _ ih (by simp) _ h

theorem accessibleFrom_nodup (g : Graph) (k : Str) : (g.accessibleFrom k).Nodup :=
  nodup_sadd ((dfsReachable_spec g (g.allKeys.length + 1) k [] (Nat.lt_succ_of_le (fresh_le g []))).nodup
    List.nodup_nil) k

/-! ## Cycles -/

/-- the black nodes in reverse order of finishing: the dependencies of each come after it -/
def Finished (g : Graph) : List Str → Prop
  | [] => True
  | b :: B => (∀ d, Dep g b d → d ∈ B) ∧ Finished g B

/-- the stack of gray nodes, the innermost first: each is a dependency of the next, which is its parent -/
def StackOk (g : Graph) (parent : List (Str × Str)) : List Str → Prop
  | [] => True
  | [_] => True
  | k :: p :: st => mget parent k = some p ∧ Dep g p k ∧ StackOk g parent (p :: st)

structure CInv (g : Graph) (s : ColorState) (st B : List Str) : Prop where
  gray : ∀ k, mget s.color k = some .gray ↔ k ∈ st
  black : ∀ k, mget s.color k = some .black ↔ k ∈ B
  nodup : st.Nodup
  known : ∀ k ∈ st, k ∈ g.allKeys
  stack : StackOk g s.parent st
  fin : Finished g B

theorem stackOk_mset {g : Graph} {parent : List (Str × Str)} {st : List Str} (h : StackOk g parent st) {d k : Str}
    (hd : d ∉ st) : StackOk g (mset parent d k) st := by
  induction st with
  | nil => trivial
  | cons a st ih =>
    cases st with
    | nil => trivial
    | cons b st =>
      refine ⟨?_, h.2.1, ih h.2.2 (by simp_all)⟩
      rw [mget_mset, if_neg]; exact h.1
      rintro rfl; simp at hd

theorem linked_append {α : Type} {R : α → α → Prop} {l : List α} {a b : α} (h : Linked R (l ++ [a])) (hab : R a b) :
    Linked R (l ++ [a] ++ [b]) := by
  induction l with
  | nil => exact ⟨hab, trivial⟩
  | cons x l ih =>
    cases l with
    | nil => exact ⟨h.1, hab, trivial⟩
    | cons y l => exact ⟨h.1, ih h.2⟩

/-- walking back from the top of the stack to `d` in the stack -/
theorem walkBack_spec {g : Graph} {parent : List (Str × Str)} (st : List Str) (d : Str) (hd : d ∈ st)
    (hs : StackOk g parent st) (bound : Nat) (hb : st.length ≤ bound) (acc : List Str) :
    ∃ pre, walkBack parent d bound (st.headD d) acc = some (acc ++ (pre ++ [d])) ∧
      (pre ++ [d]).head? = st.head? ∧ Linked (Dep g) (pre ++ [d]).reverse := by
  induction st generalizing bound acc with
  | nil => cases hd
  | cons k st ih =>
    cases bound with
    | zero => simp at hb
    | succ bound =>
      simp only [List.headD_cons]
      rw [walkBack]
      by_cases hk : k = d
      · subst hk
        rw [if_pos rfl]
        exact ⟨[], by simp, by simp, trivial⟩
      · rw [if_neg hk]
        have hd' : d ∈ st := by
          rcases List.mem_cons.mp hd with h | h
          · exact absurd h.symm hk
          · exact h
        cases st with
        | nil => cases hd'
        | cons p st =>
          obtain ⟨h1, h2, h3⟩ := hs
          rw [h1]
          obtain ⟨pre, e1, e2, e3⟩ := ih hd' h3 bound (by simp at hb ⊢; omega) (acc ++ [k])
          simp only [List.headD_cons] at e1
          refine ⟨k :: pre, by simp only [e1]; simp, by simp, ?_⟩
          -- (pre ++ [d]) starts with p
          rw [List.cons_append, List.reverse_cons]
          cases hpd : pre ++ [d] with
          | nil => simp at hpd
          | cons q qs =>
            rw [hpd] at e2 e3
            simp at e2; subst e2
            rw [List.reverse_cons] at e3 ⊢
            exact linked_append e3 h2

theorem finished_suffix {g : Graph} {B : List Str} (h : Finished g B) : ∀ b ∈ B, ∀ d, Dep g b d → d ∈ B := by
  induction B with
  | nil => intro b hb; cases hb
  | cons x B ih =>
    intro b hb d hd
    rcases List.mem_cons.mp hb with rfl | hb
    · exact List.mem_cons_of_mem _ (h.1 d hd)
    · exact List.mem_cons_of_mem _ (ih h.2 b hb d hd)

/-- a finished list has no cycle through it -/
theorem finished_acyclic {g : Graph} {B : List Str} (h : Finished g B) (hn : B.Nodup) :
    ∀ b ∈ B, ¬ TransGen (Dep g) b b := by
  induction B with
  | nil => intro b hb; cases hb
  | cons x B ih =>
    intro b hb hc
    have reach : ∀ y z, y ∈ B → TransGen (Dep g) y z → z ∈ B := by
      intro y z hy hyz
      induction hyz with
      | single h' => exact finished_suffix h.2 _ hy _ h'
      | tail _ h' ih' => exact finished_suffix h.2 _ ih' _ h'
    rcases List.mem_cons.mp hb with rfl | hb
    · obtain ⟨y, hy, hyb⟩ := TransGen.head'_iff.mp hc
      have hyB := h.1 y hy
      rcases (reflTransGen_iff_eq_or_transGen.mp hyb) with e | e
      · subst e; exact (List.nodup_cons.mp hn).1 hyB
      · exact (List.nodup_cons.mp hn).1 (reach _ _ hyB e)
    · exact ih h.2 (List.nodup_cons.mp hn).2 b hb hc

/-- What the search from `k` promises. -/
def Promise (g : Graph) (st B : List Str) (k : Str) : CycleResult → Prop
  | .clear s => ∃ X, CInv g s st (X ++ B) ∧ k ∈ X ++ B ∧ (X ++ B).Nodup
  | .found c => IsCycle g c
  | .panic => False

theorem length_st {g : Graph} {s : ColorState} {st B : List Str} (h : CInv g s st B) : st.length ≤ g.allKeys.length :=
  (List.subperm_of_subset h.nodup h.known).length_le

theorem dfsFindCycle_spec (g : Graph) (bound fuel : Nat) (hb : g.allKeys.length + 1 ≤ bound) (k : Str) (s : ColorState)
    (st B : List Str) (hi : CInv g s st B) (hB : B.Nodup) (hk : mget s.color k = none) (hka : k ∈ g.allKeys)
    (hp : ∀ p st', st = p :: st' → mget s.parent k = some p ∧ Dep g p k) (hf : fresh g (st ++ B) ≤ fuel) :
    Promise g st B k (g.dfsFindCycle bound fuel k s) := by
  induction fuel generalizing k s st B with
  | zero =>
    have hkst : k ∉ st ++ B := by
      rw [List.mem_append, ← hi.gray k, ← hi.black k, hk]; simp
    have := fresh_lt hka hkst
    omega
  | succ fuel ih =>
    rw [dfsFindCycle]
    have hkst : k ∉ st := by rw [← hi.gray k, hk]; simp
    have hkB : k ∉ B := by rw [← hi.black k, hk]; simp
    have hi1 : CInv g { s with color := mset s.color k .gray } (k :: st) B := by
      refine ⟨?_, ?_, List.nodup_cons.mpr ⟨hkst, hi.nodup⟩, ?_, ?_, hi.fin⟩
      · intro x
        simp only [mget_mset]
        by_cases hx : x = k
        · simp [hx]
        · simp [hx, hi.gray]
      · intro x
        simp only [mget_mset]
        by_cases hx : x = k
        · subst hx; simp [hkB]
        · simp [hx, hi.black]
      · intro x hx
        rcases List.mem_cons.mp hx with rfl | hx
        · exact hka
        · exact hi.known x hx
      · cases st with
        | nil => trivial
        | cons p st' =>
          obtain ⟨h1, h2⟩ := hp p st' rfl
          exact ⟨h1, h2, hi.stack⟩
    have hf1 : fresh g (k :: st ++ B) ≤ fuel := by
      have := fresh_lt hka (V := st ++ B) (by simp [hkst, hkB])
      simp only [List.cons_append]; omega
    -- over the dependencies
    have key : ∀ (ds : List Str) (s1 : ColorState) (X : List Str), (∀ d ∈ ds, Dep g k d) →
        CInv g s1 (k :: st) (X ++ B) → (X ++ B).Nodup →
        match ds.foldl (cycleStep bound k (g.dfsFindCycle bound fuel)) (.clear s1) with
        | .clear s2 => ∃ X', CInv g s2 (k :: st) (X' ++ B) ∧ (X' ++ B).Nodup ∧ (∀ d ∈ ds, d ∈ X' ++ B) ∧ X ++ B ⊆ X' ++ B
        | .found c => IsCycle g c
        | .panic => False := by
      intro ds
      induction ds with
      | nil => intro s1 X _ hs1 hn; exact ⟨X, hs1, hn, by simp, List.Subset.refl _⟩
      | cons d ds ihd =>
        intro s1 X hds hs1 hn
        have hkd := hds d (by simp)
        rw [List.foldl_cons]
        have stay : ∀ r, (∀ s, r ≠ CycleResult.clear s) →
            ds.foldl (cycleStep bound k (g.dfsFindCycle bound fuel)) r = r := by
          intro r hr
          clear ihd hds
          induction ds with
          | nil => rfl
          | cons e ds ih2 =>
            rw [List.foldl_cons]
            have : cycleStep bound k (g.dfsFindCycle bound fuel) r e = r := by
              cases r with
              | clear s => exact absurd rfl (hr s)
              | found c => rfl
              | panic => rfl
            rw [this]; exact ih2
        cases hcol : mget s1.color d with
        | none =>
          have hdk : d ∉ k :: st := by rw [← hs1.gray d, hcol]; simp
          have e : cycleStep bound k (g.dfsFindCycle bound fuel) (.clear s1) d =
              g.dfsFindCycle bound fuel d { s1 with parent := mset s1.parent d k } := by
            simp [cycleStep, hcol]
          rw [e]
          have hs1' : CInv g { s1 with parent := mset s1.parent d k } (k :: st) (X ++ B) :=
            ⟨hs1.gray, hs1.black, hs1.nodup, hs1.known, stackOk_mset hs1.stack hdk, hs1.fin⟩
          have hfr : fresh g (k :: st ++ (X ++ B)) ≤ fuel := by
            refine Nat.le_trans (fresh_mono ?_) hf1
            intro x hx
            simp only [List.cons_append, List.mem_cons, List.mem_append] at hx ⊢
            rcases hx with h | h | h
            · exact .inl h
            · exact .inr (.inl h)
            · exact .inr (.inr (.inr h))
          have hpr := ih d { s1 with parent := mset s1.parent d k } (k :: st) (X ++ B) hs1' hn hcol (dep_allKeys hkd)
            (by intro p st' he; simp at he; obtain ⟨rfl, _⟩ := he; exact ⟨by simp [mget_mset], hkd⟩) hfr
          cases hres : g.dfsFindCycle bound fuel d { s1 with parent := mset s1.parent d k } with
          | clear s2 =>
            rw [hres] at hpr
            obtain ⟨Y, hY, hdY, hYn⟩ := hpr
            have := ihd s2 (Y ++ X) (fun x hx => hds x (by simp [hx])) (by rw [List.append_assoc]; exact hY)
              (by rw [List.append_assoc]; exact hYn)
            revert this
            cases ds.foldl (cycleStep bound k (g.dfsFindCycle bound fuel)) (.clear s2) with
            | clear s3 =>
              rintro ⟨X', h1, h2, h3, h4⟩
              refine ⟨X', h1, h2, ?_, ?_⟩
              · intro x hx
                rcases List.mem_cons.mp hx with rfl | hx
                · exact h4 (by rw [List.append_assoc]; exact hdY)
                · exact h3 x hx
              · intro x hx
                exact h4 (by rw [List.append_assoc]; exact List.mem_append_right _ hx)
            | found c => exact id
            | panic => exact id
          | found c =>
            rw [hres] at hpr
            rw [stay _ (by simp)]
            exact hpr
          | panic =>
            rw [hres] at hpr
            exact hpr.elim
        | some col =>
          cases col with
          | black =>
            have e : cycleStep bound k (g.dfsFindCycle bound fuel) (.clear s1) d = .clear s1 := by
              simp [cycleStep, hcol]
            rw [e]
            have := ihd s1 X (fun x hx => hds x (by simp [hx])) hs1 hn
            revert this
            cases ds.foldl (cycleStep bound k (g.dfsFindCycle bound fuel)) (.clear s1) with
            | clear s3 =>
              rintro ⟨X', h1, h2, h3, h4⟩
              refine ⟨X', h1, h2, ?_, h4⟩
              intro x hx
              rcases List.mem_cons.mp hx with rfl | hx
              · exact h4 ((hs1.black x).mp hcol)
              · exact h3 x hx
            | found c => exact id
            | panic => exact id
          | gray =>
            have hdst : d ∈ k :: st := (hs1.gray d).mp hcol
            obtain ⟨pre, e1, e2, e3⟩ := walkBack_spec (g := g) (parent := s1.parent) (k :: st) d hdst hs1.stack bound
              (Nat.le_trans (length_st hs1) (by omega)) []
            simp only [List.headD_cons, List.nil_append] at e1
            have e : cycleStep bound k (g.dfsFindCycle bound fuel) (.clear s1) d = .found (pre ++ [d]).reverse := by
              simp only [cycleStep, hcol, e1]
            rw [e, stay _ (by simp)]
            have hrev : (pre ++ [d]).reverse = d :: pre.reverse := by simp
            refine ⟨d, pre.reverse, hrev, e3, ?_⟩
            have : (pre ++ [d]).reverse.getLast? = some k := by
              rw [List.getLast?_reverse, e2]; rfl
            rw [this]
            exact hkd
    have hfold := key (g.depsOf k) _ [] (fun d hd => depsOf_mem.mp hd) hi1 hB
    revert hfold
    cases (g.depsOf k).foldl (cycleStep bound k (g.dfsFindCycle bound fuel))
        (.clear { s with color := mset s.color k .gray }) with
    | found c => exact id
    | panic => exact id
    | clear s2 =>
      rintro ⟨X', h1, h2, h3, _⟩
      have hkX : k ∉ X' ++ B := by
        rw [← h1.black k]
        have : mget s2.color k = some .gray := (h1.gray k).mpr (by simp)
        rw [this]; simp
      refine ⟨k :: X', ?_, by simp, List.nodup_cons.mpr ⟨hkX, h2⟩⟩
      refine ⟨?_, ?_, hi.nodup, hi.known, ?_, ?_⟩
      · intro x
        simp only [mget_mset]
        by_cases hx : x = k
        · subst hx; simp [hkst]
        · simp [hx, h1.gray]
      · intro x
        simp only [mget_mset]
        by_cases hx : x = k
        · subst hx; simp
        · have := h1.black x
          simp [hx]; simpa using this
      · have := h1.stack
        cases st with
        | nil => trivial
        | cons p st' => exact this.2.2
      · exact ⟨fun d hd => h3 d (depsOf_mem.mpr hd), h1.fin⟩

theorem findCycleLoop_spec (g : Graph) (bound : Nat) (hb : g.allKeys.length + 1 ≤ bound) (ks : List Str)
    (hks : ∀ k ∈ ks, k ∈ mkeys g.nodes) (s : ColorState) (B : List Str) (hi : CInv g s [] B) (hB : B.Nodup) :
    match findCycleLoop g bound ks s with
    | .clear _ => ∃ B', Finished g B' ∧ B'.Nodup ∧ (∀ k ∈ ks, k ∈ B') ∧ B ⊆ B'
    | .found c => IsCycle g c
    | .panic => False := by
  induction ks generalizing s B with
  | nil => exact ⟨B, hi.fin, hB, by simp, List.Subset.refl _⟩
  | cons k ks ih =>
    rw [findCycleLoop]
    cases hcol : mget s.color k with
    | some col =>
      have hkB : k ∈ B := by
        cases col with
        | black => exact (hi.black k).mp hcol
        | gray => exact absurd ((hi.gray k).mp hcol) (by simp)
      have := ih (fun x hx => hks x (by simp [hx])) s B hi hB
      simp only
      revert this
      cases findCycleLoop g bound ks s with
      | clear s' =>
        rintro ⟨B', h1, h2, h3, h4⟩
        refine ⟨B', h1, h2, ?_, h4⟩
        intro x hx
        rcases List.mem_cons.mp hx with rfl | hx
        · exact h4 hkB
        · exact h3 x hx
      | found c => exact id
      | panic => exact id
    | none =>
      have hpr := dfsFindCycle_spec g bound bound hb k s [] B hi hB hcol (key_allKeys (hks k (by simp)))
        (by intro p st' h; cases h) (Nat.le_trans (fresh_le g _) (by omega))
      simp only
      cases hres : g.dfsFindCycle bound bound k s with
      | found c => rw [hres] at hpr; exact hpr
      | panic => rw [hres] at hpr; exact hpr
      | clear s1 =>
        rw [hres] at hpr
        obtain ⟨X, h1, h2, h3⟩ := hpr
        have := ih (fun x hx => hks x (by simp [hx])) s1 (X ++ B) h1 h3
        simp only
        revert this
        cases findCycleLoop g bound ks s1 with
        | clear s' =>
          rintro ⟨B', e1, e2, e3, e4⟩
          refine ⟨B', e1, e2, ?_, fun x hx => e4 (List.mem_append_right _ hx)⟩
          intro x hx
          rcases List.mem_cons.mp hx with rfl | hx
          · exact e4 h2
          · exact e3 x hx
        | found c => exact id
        | panic => exact id

/-- `find_cycle` returns a real cycle, or nothing on an acyclic graph; it never panics. -/
theorem findCycle_spec (g : Graph) :
    match g.findCycle with
    | .clear _ => Acyclic g
    | .found c => IsCycle g c
    | .panic => False := by
  have h0 : CInv g ⟨[], []⟩ [] [] :=
    ⟨by intro k; simp, by intro k; simp, List.nodup_nil, by simp, trivial, trivial⟩
  have := findCycleLoop_spec g (g.allKeys.length + 1) (Nat.le_refl _) (mkeys g.nodes) (fun _ h => h) ⟨[], []⟩ [] h0
    List.nodup_nil
  unfold findCycle
  revert this
  cases findCycleLoop g (g.allKeys.length + 1) (mkeys g.nodes) ⟨[], []⟩ with
  | clear s =>
    rintro ⟨B', h1, h2, h3, _⟩ k hk
    obtain ⟨y, ⟨n, hn, _⟩, _⟩ := TransGen.head'_iff.mp hk
    exact finished_acyclic h1 h2 k (h3 k ((mget_isSome_iff _ _).mp ⟨_, hn⟩)) hk
  | found c => exact id
  | panic => exact id

theorem linked_transGen {α : Type} {R : α → α → Prop} (x : α) (xs : List α) (h : Linked R (x :: xs)) :
    ReflTransGen R x ((x :: xs).getLast?.getD x) := by
  induction xs generalizing x with
  | nil => exact ReflTransGen.refl
  | cons y ys ih =>
    have := ih y h.2
    refine ReflTransGen.head h.1 ?_
    have e : (x :: y :: ys).getLast?.getD x = (y :: ys).getLast?.getD y := by
      simp [List.getLast?_cons_cons, List.getLast?_eq_some_getLast (l := y :: ys) (by simp)]
    rw [e]; exact this

theorem isCycle_not_acyclic {g : Graph} {c : List Str} (h : IsCycle g c) : ¬ Acyclic g := by
  obtain ⟨x, xs, rfl, h1, h2⟩ := h
  intro ha
  exact ha x (TransGen.tail' (linked_transGen x xs h1) h2)

/-! ## Depth -/

theorem depthRec_chain (g : Graph) (fuel : Nat) (k : Str) (V : List Str) :
    ∃ c, (c = [] ∨ c.head? = some k) ∧ Linked (Dep g) c ∧ (∀ x ∈ c, x ∈ mkeys g.nodes) ∧
      c.length = (g.depthRec fuel k V).1 := by
  induction fuel generalizing k V with
  | zero => exact ⟨[], .inl rfl, trivial, by simp, rfl⟩
  | succ fuel ih =>
    rw [depthRec]
    split
    · exact ⟨[], .inl rfl, trivial, by simp, rfl⟩
    · cases hn : mget g.nodes k with
      | none => exact ⟨[], .inl rfl, trivial, by simp, rfl⟩
      | some n =>
        simp only
        have hkk : k ∈ mkeys g.nodes := (mget_isSome_iff _ _).mp ⟨_, hn⟩
        have key : ∀ (ds : List Str) (acc : Nat × List Str), (∀ d ∈ ds, Dep g k d) →
            (∃ c, Linked (Dep g) (k :: c) ∧ (∀ x ∈ c, x ∈ mkeys g.nodes) ∧ c.length = acc.1) →
            ∃ c, Linked (Dep g) (k :: c) ∧ (∀ x ∈ c, x ∈ mkeys g.nodes) ∧
              c.length = (ds.foldl (fun acc d => (max acc.1 (depthRec g fuel d acc.2).1, (depthRec g fuel d acc.2).2)) acc).1 := by
          intro ds
          induction ds with
          | nil => intro acc _ h; exact h
          | cons d ds ihd =>
            intro acc hds h
            rw [List.foldl_cons]
            apply ihd _ (fun x hx => hds x (by simp [hx]))
            obtain ⟨c, h1, h2, h3⟩ := h
            obtain ⟨c', e1, e2, e3, e4⟩ := ih d acc.2
            by_cases hle : (depthRec g fuel d acc.2).1 ≤ acc.1
            · exact ⟨c, h1, h2, by simp [Nat.max_eq_left hle, h3]⟩
            · refine ⟨c', ?_, e3, by simp [Nat.max_eq_right (Nat.le_of_not_le hle), e4]⟩
              rcases e1 with rfl | e1
              · trivial
              · cases c' with
                | nil => trivial
                | cons y ys => simp at e1; subst e1; exact ⟨hds y (by simp), e2⟩
        obtain ⟨c, h1, h2, h3⟩ := key n.deps (0, k :: V) (fun d hd => ⟨n, hn, hd⟩) ⟨[], trivial, by simp, rfl⟩
        refine ⟨k :: c, .inr rfl, h1, ?_, by simp [h3]⟩
        intro x hx
        rcases List.mem_cons.mp hx with rfl | hx
        · exact hkk
        · exact h2 x hx

end Rez
