import Verif.Spec.ReleaseCommand
import Verif.Lemmas.Version
/-!
# Properties of the release command (C156, C157)
-/
namespace Rez.Props
open Rez Rez.Release Rez.Release.Spec

namespace ReleaseLemmas

theorem number_iff {t : Str} {i : Nat} : parseU64 t = some i ↔ Number t i := by
  unfold parseU64 Number
  constructor
  · intro h
    dsimp only at h
    split at h
    · rename_i hc
      simp only [Bool.and_eq_true, Bool.not_eq_true', decide_eq_true_eq, List.isEmpty_eq_false_iff] at hc
      refine ⟨stripPlus t, ?_, hc.1.1, by simpa using hc.1.2, by simpa using h, by
        have := hc.2; simp only [Option.some.injEq] at h; omega⟩
      unfold stripPlus
      split
      · exact Or.inr rfl
      · exact Or.inl rfl
    · cases h
  · rintro ⟨ds, ht, hne, hd, hv, hl⟩
    have hp : stripPlus t = ds := by
      rcases ht with rfl | rfl
      · unfold stripPlus
        split
        · have := hd '+' (by simp)
          simp [isDigit] at this
        · rfl
      · rfl
    dsimp only
    rw [hp, if_pos, hv]
    simp only [Bool.and_eq_true, Bool.not_eq_true', decide_eq_true_eq, List.isEmpty_eq_false_iff]
    exact ⟨⟨hne, by simpa using hd⟩, by rw [hv]; exact hl⟩

/-- The accumulated numbers are the first appearances. -/
theorem firsts_snoc {l all : List Nat} (h : Firsts l all) (i : Nat) :
    Firsts (if i ∈ l then l else l ++ [i]) (all ++ [i]) := by
  obtain ⟨hm, hp⟩ := h
  have hkeep : ∀ j ∈ l, (all ++ [i]).idxOf j = all.idxOf j := by
    intro j hj
    rw [List.idxOf_append_of_mem ((hm j).1 hj)]
  have hp' : l.Pairwise fun x y => (all ++ [i]).idxOf x < (all ++ [i]).idxOf y := by
    refine hp.imp_of_mem ?_
    intro x y hx hy hxy
    rw [hkeep x hx, hkeep y hy]
    exact hxy
  by_cases hi : i ∈ l
  · rw [if_pos hi]
    refine ⟨fun j => ?_, hp'⟩
    rw [List.mem_append, List.mem_singleton, hm j]
    constructor
    · exact Or.inl
    · rintro (hj | rfl)
      · exact hj
      · exact (hm j).1 hi
  · rw [if_neg hi]
    refine ⟨fun j => by simp [hm j], List.pairwise_append.2 ⟨hp', List.pairwise_singleton _ _, ?_⟩⟩
    intro x hx y hy
    rw [List.mem_singleton] at hy
    subst hy
    rw [hkeep x hx, List.idxOf_append_of_notMem (fun hc => hi ((hm y).2 hc))]
    have := List.idxOf_lt_length_iff.2 ((hm x).1 hx)
    omega

theorem each_iff (n : Nat) (l : List Str) : ∀ (acc all r : List Nat), Firsts acc all →
    (chooseEach n l acc = some r ↔
      ∃ is, List.Forall₂ Number l is ∧ (∀ i ∈ is, i < n) ∧ Firsts r (all ++ is)) := by
  have uniq : ∀ {all a b : List Nat}, Firsts a all → Firsts b all → a = b := by
    intro all a b ha hb
    have hnd : ∀ {x : List Nat}, x.Pairwise (fun i j => all.idxOf i < all.idxOf j) → x.Nodup := by
      intro x hx
      exact hx.imp (fun hlt he => by subst he; omega)
    have hperm : a.Perm b := (List.perm_ext_iff_of_nodup (hnd ha.2) (hnd hb.2)).2 fun i => (ha.1 i).trans (hb.1 i).symm
    refine hperm.eq_of_pairwise (fun x y _ _ h1 h2 => absurd h1 (by omega)) ha.2 hb.2
  induction l with
  | nil =>
    intro acc all r hacc
    show (some acc = some r) ↔ _
    constructor
    · rintro h
      obtain rfl := Option.some.inj h
      exact ⟨[], List.Forall₂.nil, by simp, by simpa using hacc⟩
    · rintro ⟨is, hf, -, hr⟩
      cases hf
      rw [List.append_nil] at hr
      rw [uniq hacc hr]
  | cons t l ih =>
    intro acc all r hacc
    unfold chooseEach
    cases ht : parseU64 t with
    | none =>
      refine ⟨fun h => (by cases h), ?_⟩
      rintro ⟨is, hf, -⟩
      cases hf with
      | cons h1 h2 => rw [number_iff.2 h1] at ht; cases ht
    | some i =>
      dsimp only
      by_cases hn : n ≤ i
      · rw [if_pos hn]
        refine ⟨fun h => (by cases h), ?_⟩
        rintro ⟨is, hf, hlt, -⟩
        cases hf with
        | cons h1 h2 =>
          rw [number_iff.2 h1] at ht
          cases ht
          exact absurd (hlt i (by simp)) (by omega)
      · rw [if_neg hn, ih _ _ r (firsts_snoc hacc i)]
        constructor
        · rintro ⟨is, hf, hlt, hr⟩
          refine ⟨i :: is, List.Forall₂.cons (number_iff.1 ht) hf, ?_, by simpa using hr⟩
          intro j hj
          rcases List.mem_cons.1 hj with rfl | hj
          · omega
          · exact hlt j hj
        · rintro ⟨is, hf, hlt, hr⟩
          cases hf with
          | @cons _ j _ is' h1 h2 =>
            rw [number_iff.2 h1] at ht
            cases ht
            exact ⟨is', h2, fun k hk => hlt k (List.mem_cons_of_mem _ hk), by simpa using hr⟩

end ReleaseLemmas

/-- **C156**: which variants a release builds, exactly; whatever is not chosen so is refused. -/
theorem C156_variants (p : Pkg) (sel : Option Str) (l : List (Option Nat)) :
    chooseVariants p sel = some l ↔ Chosen p sel l := by
  unfold chooseVariants
  by_cases hv : p.variants = 0
  · rw [if_pos hv]
    constructor
    · intro h
      split at h
      · cases h
      · rename_i hc
        cases h
        refine Chosen.whole sel hv ?_
        rintro t rfl
        simpa using hc
    · intro h
      cases h with
      | whole _ _ hs =>
        rw [if_neg]
        cases sel with
        | none => simp
        | some t => simp [hs t rfl]
      | all h => exact absurd hv h
      | given t is l h => exact absurd hv h
  · rw [if_neg hv]
    cases sel with
    | none =>
      constructor
      · intro h
        cases h
        exact Chosen.all hv
      · intro h
        cases h with
        | whole _ h0 => exact absurd h0 hv
        | all => rfl
    | some t =>
      have key := fun r => ReleaseLemmas.each_iff p.variants (pieces t) [] [] r ⟨by simp, List.Pairwise.nil⟩
      show (match chooseEach p.variants (pieces t) [] with
        | none => none | some [] => none | some l => some (l.map some)) = some l ↔ _
      constructor
      · intro h
        cases hc : chooseEach p.variants (pieces t) [] with
        | none => rw [hc] at h; cases h
        | some r =>
          rw [hc] at h
          obtain ⟨is, hf, hlt, hr⟩ := (key r).1 hc
          rw [List.nil_append] at hr
          cases r with
          | nil => cases h
          | cons i r =>
            cases h
            refine Chosen.given t is (i :: r) hv ?_ hf hlt hr
            intro hp
            rw [hp] at hf
            cases hf
            exact absurd ((hr.1 i).1 (by simp)) (by simp)
      · intro h
        cases h with
        | whole _ h0 => exact absurd h0 hv
        | given _ is l _ hn hf hlt hr =>
          rw [(key l).2 ⟨is, hf, hlt, by simpa using hr⟩]
          cases l with
          | nil =>
            exfalso
            cases hp : pieces t with
            | nil => exact hn hp
            | cons a b =>
              rw [hp] at hf
              cases hf with
              | @cons _ i _ _ h1 h2 => exact absurd ((hr.1 i).2 (by simp)) (by simp)
          | cons i r => rfl

/-- C156 is about something: numbers given twice and out of order. -/
example : Chosen ⟨c!"foo", some c!"1.0", 3⟩ (some c!" 2, 0,,2 ,") [some 2, some 0] := by
  rw [← C156_variants]
  decide +kernel

/-- Every chosen variant is one of the package, and none is built twice. -/
theorem C156_once {p : Pkg} {sel : Option Str} {l : List (Option Nat)} (h : Chosen p sel l) :
    l ≠ [] ∧ l.Nodup ∧ ∀ i, some i ∈ l → i < p.variants := by
  cases h with
  | whole _ h hs => simp
  | all h =>
    refine ⟨by simpa using h, ?_, ?_⟩
    · exact List.pairwise_map.2 (List.nodup_range.imp fun hne he => hne (Option.some.inj he))
    · intro i hi
      simpa using hi
  | given t is l h hn hf hlt hr =>
    refine ⟨?_, ?_, ?_⟩
    · intro hl
      rw [List.map_eq_nil_iff] at hl
      subst hl
      cases hp : pieces t with
      | nil => exact hn hp
      | cons a b =>
        rw [hp] at hf
        cases hf with
        | @cons _ i _ _ h1 h2 => exact absurd ((hr.1 i).2 (by simp)) (by simp)
    · have hnd : l.Nodup := hr.2.imp (fun hlt he => by subst he; omega)
      exact List.pairwise_map.2 (hnd.imp fun hne he => hne (Option.some.inj he))
    · intro i hi
      have : i ∈ l := by simpa using hi
      exact hlt i ((hr.1 i).1 this)

namespace ReleaseLemmas

variable {W : Type}

theorem ask_log (m : Machine W) (a : Act) (s : St W) : (ask m a s).1.log = s.log ++ [(a, (ask m a s).2)] := rfl

theorem tag_eq (p : Pkg) : tagOf p = Spec.tag p := by
  unfold tagOf Spec.tag
  cases p.version <;> simp [Option.getD]

theorem message_ok (a : Args) (p : Pkg) : Message a p (messageOf a p) := by
  unfold messageOf
  rw [tag_eq]
  cases hm : a.message with
  | some t => exact Message.given t hm
  | none =>
    cases hf : a.messageFile with
    | none => exact Message.own hm (Or.inl hf)
    | some f =>
      cases f with
      | none => exact Message.own hm (Or.inr hf)
      | some t => exact Message.file t hm hf

/-- What building the variants comes to: the first ones with success, and then perhaps one that fails. -/
theorem buildEach_log (m : Machine W) (l : List (Option Nat)) : ∀ s : St W, ∃ b,
    (buildEach m l s).1.log = s.log ++ b ∧
    (((buildEach m l s).2 = none ∧ BuiltAll l b) ∨
      ∃ l₁ i l₂ b₁ tail, l = l₁ ++ i :: l₂ ∧ BuiltAll l₁ b₁ ∧ b = b₁ ++ tail ∧
        (((buildEach m l s).2 = some (.prepare i) ∧ ∃ a, tail = [(.prepare i, a)] ∧ a.ok = false) ∨
          ((buildEach m l s).2 = some (.build i) ∧ ∃ a a', tail = [(.prepare i, a), (.build i, a')] ∧ a.ok = true ∧
            a'.ok = false))) := by
  induction l with
  | nil => intro s; exact ⟨[], by simp [buildEach], Or.inl ⟨rfl, BuiltAll.nil⟩⟩
  | cons i l ih =>
    intro s
    unfold buildEach
    dsimp only
    by_cases h1 : (ask m (.prepare i) s).2.ok = true
    · rw [if_neg (by simp [h1])]
      by_cases h2 : (ask m (.build i) (ask m (.prepare i) s).1).2.ok = true
      · rw [if_neg (by simp [h2])]
        obtain ⟨b, hb, hc⟩ := ih (ask m (.build i) (ask m (.prepare i) s).1).1
        refine ⟨(.prepare i, (ask m (.prepare i) s).2) :: (.build i, (ask m (.build i) (ask m (.prepare i) s).1).2) :: b,
          by rw [hb, ask_log, ask_log]; simp, ?_⟩
        rcases hc with ⟨hn, hB⟩ | ⟨l₁, j, l₂, b₁, tail, hl, hB, hbt, hr⟩
        · exact Or.inl ⟨hn, BuiltAll.cons _ _ _ _ _ h1 h2 hB⟩
        · exact Or.inr ⟨i :: l₁, j, l₂, _, tail, by rw [hl]; rfl, BuiltAll.cons _ _ _ _ _ h1 h2 hB, by rw [hbt]; rfl, hr⟩
      · rw [if_pos (by simp [h2])]
        refine ⟨[(.prepare i, (ask m (.prepare i) s).2), (.build i, (ask m (.build i) (ask m (.prepare i) s).1).2)], by
          rw [ask_log, ask_log]; simp, Or.inr ⟨[], i, l, [], _, rfl, BuiltAll.nil, rfl, Or.inr ⟨rfl, _, _, rfl, h1, by simpa using h2⟩⟩⟩
    · rw [if_pos (by simp [h1])]
      exact ⟨[(.prepare i, (ask m (.prepare i) s).2)], by rw [ask_log], Or.inr ⟨[], i, l, [], _, rfl, BuiltAll.nil, rfl,
        Or.inl ⟨rfl, _, rfl, by simpa using h1⟩⟩⟩

/-- What tagging comes to. -/
theorem createTag_log (m : Machine W) (t msg : Str) (s : St W) : ∃ b,
    (createTag m t msg s).1.log = s.log ++ b ∧
    (((createTag m t msg s).2 = none ∧ ∃ a a', b = [(.tag t msg, a), (.push t, a')] ∧ a.ok = true ∧ a'.ok = true) ∨
     ((createTag m t msg s).2 = some .tag ∧ ∃ a, b = [(.tag t msg, a)] ∧ a.ok = false) ∨
     ((createTag m t msg s).2 = some .push ∧ ∃ a a' a'', b = [(.tag t msg, a), (.push t, a'), (.untag t, a'')] ∧
        a.ok = true ∧ a'.ok = false)) := by
  unfold createTag
  dsimp only
  by_cases h1 : (ask m (.tag t msg) s).2.ok = true
  · rw [if_neg (by simp [h1])]
    by_cases h2 : (ask m (.push t) (ask m (.tag t msg) s).1).2.ok = true
    · rw [if_neg (by simp [h2])]
      exact ⟨_, by rw [ask_log, ask_log, List.append_assoc]; rfl, Or.inl ⟨rfl, _, _, rfl, h1, h2⟩⟩
    · rw [if_pos (by simp [h2])]
      exact ⟨_, by rw [ask_log, ask_log, ask_log, List.append_assoc, List.append_assoc]; rfl,
        Or.inr (Or.inr ⟨rfl, _, _, _, rfl, h1, by simpa using h2⟩)⟩
  · rw [if_pos (by simp [h1])]
    exact ⟨_, by rw [ask_log], Or.inr (Or.inl ⟨rfl, _, rfl, by simpa using h1⟩)⟩

theorem vcs_git {a : Args} {d : Dir} (h : a.vcs.getD (detectVcs d) = c!"git") :
    a.vcs = some c!"git" ∨ (a.vcs = none ∧ d.git = true) := by
  cases hv : a.vcs with
  | some v => rw [hv] at h; exact Or.inl (by rw [show v = c!"git" from h])
  | none =>
    rw [hv] at h
    refine Or.inr ⟨rfl, ?_⟩
    have h : detectVcs d = c!"git" := h
    unfold detectVcs at h
    cases hg : d.git with
    | true => rfl
    | false =>
      rw [hg] at h
      cases hs : d.svn <;> cases hh : d.hg <;> rw [hs] at h <;> try rw [hh] at h
      all_goals exact absurd h (by decide)

/-- The checks, and what comes after them. -/
theorem release_log (m : Machine W) (a : Args) (d : Dir) (w : W) :
    (∃ e, (release m a d w).2 = some e ∧ ∀ x ∈ (release m a d w).1.log, Act.looks x.1 = true) ∨
    ∃ p s, Checked a d p s.log ∧ release m a d w = if a.dryRun then (s, none) else perform m a p s := by
  unfold release
  cases hp : d.package with
  | none => exact Or.inl ⟨_, rfl, by simp⟩
  | some p =>
    dsimp only
    by_cases hv : a.vcs.getD (detectVcs d) = c!"git"
    · rw [if_neg (by simpa using hv)]
      -- the state of the repository
      have h1 : (∃ e, (if a.skipRepoErrors then ((⟨w, []⟩ : St W), none) else validate m ⟨w, []⟩).2 = some e ∧
            ∀ x ∈ (if a.skipRepoErrors then ((⟨w, []⟩ : St W), none) else validate m ⟨w, []⟩).1.log, Act.looks x.1 = true) ∨
          ((if a.skipRepoErrors then ((⟨w, []⟩ : St W), none) else validate m ⟨w, []⟩).2 = none ∧
            (a.skipRepoErrors = true ∨
              FoundClean (if a.skipRepoErrors then ((⟨w, []⟩ : St W), none) else validate m ⟨w, []⟩).1.log) ∧
            ∀ x ∈ (if a.skipRepoErrors then ((⟨w, []⟩ : St W), none) else validate m ⟨w, []⟩).1.log, Act.looks x.1 = true) := by
        cases hk : a.skipRepoErrors with
        | true => exact Or.inr ⟨rfl, Or.inl rfl, by simp⟩
        | false =>
          rw [if_neg (by simp)]
          unfold validate
          dsimp only
          by_cases h2 : (ask m .status (⟨w, []⟩ : St W)).2.started = true
          · rw [if_neg (by simp [h2])]
            by_cases h3 : (ask m .status (⟨w, []⟩ : St W)).2.out = []
            · rw [if_neg (by simp [h3])]
              refine Or.inr ⟨rfl, Or.inr ⟨(ask m .status (⟨w, []⟩ : St W)).2, ?_, h2, h3⟩, ?_⟩
              · rw [ask_log, ask_log]; simp
              · rw [ask_log, ask_log]; simp [Act.looks]
            · rw [if_pos (by simpa using h3)]
              exact Or.inl ⟨_, rfl, by rw [ask_log]; simp [Act.looks]⟩
          · rw [if_pos (by simp [h2])]
            exact Or.inl ⟨_, rfl, by rw [ask_log]; simp [Act.looks]⟩
      generalize hr1 : (if a.skipRepoErrors then ((⟨w, []⟩ : St W), none) else validate m ⟨w, []⟩) = r1 at h1 ⊢
      obtain ⟨s1, e1⟩ := r1
      rcases h1 with ⟨e, he, hl⟩ | ⟨hn, hclean, hl⟩
      · have he : e1 = some e := he
        subst he
        exact Or.inl ⟨e, rfl, hl⟩
      · have hn : e1 = none := hn
        subst hn
        have hnx : ∀ k : St W → St W × Option Problem, next ((s1, none) : St W × Option Problem) k = k s1 := fun _ => rfl
        simp only [hnx]
        have h2 : (∃ e, (if a.ignoreExistingTag then (s1, none) else checkTag m (tagOf p) s1).2 = some e ∧
              ∀ x ∈ (if a.ignoreExistingTag then (s1, none) else checkTag m (tagOf p) s1).1.log, Act.looks x.1 = true) ∨
            ((if a.ignoreExistingTag then (s1, none) else checkTag m (tagOf p) s1).2 = none ∧
              (∃ b, (if a.ignoreExistingTag then (s1, none) else checkTag m (tagOf p) s1).1.log = s1.log ++ b) ∧
              (a.ignoreExistingTag = true ∨
                NotFound (tagOf p) (if a.ignoreExistingTag then (s1, none) else checkTag m (tagOf p) s1).1.log) ∧
              ∀ x ∈ (if a.ignoreExistingTag then (s1, none) else checkTag m (tagOf p) s1).1.log, Act.looks x.1 = true) := by
          cases hk : a.ignoreExistingTag with
          | true => exact Or.inr ⟨rfl, ⟨[], by simp⟩, Or.inl rfl, hl⟩
          | false =>
            rw [if_neg (by simp)]
            have hl' : ∀ x ∈ (ask m (.tagged (tagOf p)) s1).1.log, Act.looks x.1 = true := by
              intro x hx
              rw [ask_log, List.mem_append, List.mem_singleton] at hx
              rcases hx with hx | rfl
              · exact hl x hx
              · rfl
            unfold checkTag
            dsimp only
            by_cases h3 : ((ask m (.tagged (tagOf p)) s1).2.started && !(ask m (.tagged (tagOf p)) s1).2.out.isEmpty) = true
            · rw [if_pos h3]
              exact Or.inl ⟨_, rfl, hl'⟩
            · rw [if_neg h3]
              refine Or.inr ⟨rfl, ⟨_, ask_log _ _ _⟩, Or.inr ⟨(ask m (.tagged (tagOf p)) s1).2, by rw [ask_log]; simp, ?_⟩, hl'⟩
              intro hs
              rw [hs] at h3
              simpa using h3
        generalize hr2 : (if a.ignoreExistingTag then (s1, none) else checkTag m (tagOf p) s1) = r2 at h2 ⊢
        obtain ⟨s2, e2⟩ := r2
        rcases h2 with ⟨e, he, hl2⟩ | ⟨hn, ⟨b, hb⟩, hnf, hl2⟩
        · have he : e2 = some e := he
          subst he
          exact Or.inl ⟨e, rfl, hl2⟩
        · have hn : e2 = none := hn
          subst hn
          refine Or.inr ⟨p, s2, ⟨hp, vcs_git hv, ?_, ?_, hl2⟩, rfl⟩
          · rcases hclean with h | ⟨x, hx, h⟩
            · exact Or.inl h
            · have hb : s2.log = s1.log ++ b := hb
              exact Or.inr ⟨x, by rw [hb]; exact List.mem_append_left _ hx, h⟩
          · rw [← tag_eq]
            exact hnf
    · rw [if_pos hv]
      exact Or.inl ⟨_, rfl, by simp⟩

end ReleaseLemmas

/-- **C157**: a release that succeeds and is not a dry run has, after checks that only look, built the chosen variants in their
order, each with success, and has then made the tag and pushed it, and nothing else. -/
theorem C157_success {W : Type} (m : Machine W) (a : Args) (d : Dir) (w : W) (hd : a.dryRun = false)
    (h : (release m a d w).2 = none) :
    ∃ p l msg checks builds x y, Checked a d p checks ∧ Chosen p a.variants l ∧ BuiltAll l builds ∧ Message a p msg ∧
      x.ok = true ∧ y.ok = true ∧
      (release m a d w).1.log = checks ++ builds ++ [(.tag (Spec.tag p) msg, x), (.push (Spec.tag p), y)] := by
  rcases ReleaseLemmas.release_log m a d w with ⟨e, he, -⟩ | ⟨p, s, hc, hr⟩
  · rw [h] at he; cases he
  · rw [hr, hd] at h ⊢
    rw [if_neg (by simp)] at h ⊢
    unfold perform at h ⊢
    cases hv : chooseVariants p a.variants with
    | none => rw [hv] at h; cases h
    | some l =>
      rw [hv] at h
      dsimp only at h ⊢
      obtain ⟨b, hb, hcase⟩ := ReleaseLemmas.buildEach_log m l s
      rcases hcase with ⟨hn, hB⟩ | ⟨l₁, i, l₂, b₁, tail, -, -, -, hf⟩
      · unfold next at h ⊢
        rw [hn] at h ⊢
        dsimp only at h ⊢
        obtain ⟨c, hcl, hk⟩ := ReleaseLemmas.createTag_log m (tagOf p) (messageOf a p) (buildEach m l s).1
        rcases hk with ⟨-, x, y, hc2, hx, hy⟩ | ⟨he, -⟩ | ⟨he, -⟩
        · refine ⟨p, l, messageOf a p, s.log, b, x, y, hc, (C156_variants _ _ _).1 hv, hB, ReleaseLemmas.message_ok a p, hx, hy, ?_⟩
          rw [hcl, hb, hc2, ReleaseLemmas.tag_eq]
        · rw [he] at h; cases h
        · rw [he] at h; cases h
      · unfold next at h
        rcases hf with ⟨he, -⟩ | ⟨he, -⟩ <;> rw [he] at h <;> cases h

/-- **C157**: a release that fails has not pushed anything with success; a tag that it has made it has also removed again, and
before the tag every chosen variant was built. -/
theorem C157_failure {W : Type} (m : Machine W) (a : Args) (d : Dir) (w : W) (h : (release m a d w).2 ≠ none) :
    (∀ t x, (Act.push t, x) ∈ (release m a d w).1.log → x.ok = false) ∧
    ∀ t msg x, (Act.tag t msg, x) ∈ (release m a d w).1.log → x.ok = true →
      ∃ before y z, (release m a d w).1.log = before ++ [(.tag t msg, x), (.push t, y), (.untag t, z)] := by
  have look : ∀ (log : Log), (∀ x ∈ log, Act.looks x.1 = true) →
      (∀ t x, (Act.push t, x) ∈ log → x.ok = false) ∧ ∀ t msg x, (Act.tag t msg, x) ∈ log → False := by
    intro log hl
    refine ⟨fun t x hx => ?_, fun t msg x hx => ?_⟩ <;> cases hl _ hx
  have built : ∀ (l : List (Option Nat)) (log : Log), BuiltAll l log →
      (∀ t x, (Act.push t, x) ∈ log → False) ∧ ∀ t msg x, (Act.tag t msg, x) ∈ log → False := by
    intro l log hB
    induction hB with
    | nil => simp
    | cons i l a b log ha hb h ih =>
      refine ⟨fun t x hx => ?_, fun t msg x hx => ?_⟩
      · simp only [List.mem_cons, Prod.mk.injEq, reduceCtorEq, false_and, false_or] at hx
        exact ih.1 t x hx
      · simp only [List.mem_cons, Prod.mk.injEq, reduceCtorEq, false_and, false_or] at hx
        exact ih.2 t msg x hx
  rcases ReleaseLemmas.release_log m a d w with ⟨e, he, hl⟩ | ⟨p, s, hc, hr⟩
  · exact ⟨(look _ hl).1, fun t msg x hx => absurd hx ((look _ hl).2 t msg x)⟩
  · have hl := look _ hc.2.2.2.2
    rw [hr] at h ⊢
    cases hd : a.dryRun with
    | true => rw [hd] at h; exact absurd rfl h
    | false =>
      rw [hd] at h
      rw [if_neg (by simp)] at h ⊢
      unfold perform at h ⊢
      cases hv : chooseVariants p a.variants with
      | none => exact ⟨hl.1, fun t msg x hx => absurd hx (hl.2 t msg x)⟩
      | some l =>
        rw [hv] at h
        dsimp only at h ⊢
        obtain ⟨b, hb, hcase⟩ := ReleaseLemmas.buildEach_log m l s
        rcases hcase with ⟨hn, hB⟩ | ⟨l₁, i, l₂, b₁, tail, -, hB, hbt, hf⟩
        · unfold next at h ⊢
          rw [hn] at h ⊢
          dsimp only at h ⊢
          have hb2 := built _ _ hB
          obtain ⟨c, hcl, hk⟩ := ReleaseLemmas.createTag_log m (tagOf p) (messageOf a p) (buildEach m l s).1
          rw [hb] at hcl
          have mem : ∀ e, e ∈ (createTag m (tagOf p) (messageOf a p) (buildEach m l s).1).1.log → (e ∈ s.log ∨ e ∈ b) ∨ e ∈ c := by
            intro e he
            rw [hcl] at he
            simpa [or_assoc] using he
          rcases hk with ⟨hnone, -⟩ | ⟨-, x, rfl, hx⟩ | ⟨-, x, y, z, rfl, hx, hy⟩
          · exact absurd hnone h
          · refine ⟨fun t x' hx' => ?_, fun t msg x' hx' hok => ?_⟩
            · rcases mem _ hx' with (h1 | h1) | h1
              · exact hl.1 t x' h1
              · exact absurd h1 (hb2.1 t x')
              · simp at h1
            · rcases mem _ hx' with (h1 | h1) | h1
              · exact absurd h1 (hl.2 t msg x')
              · exact absurd h1 (hb2.2 t msg x')
              · simp only [List.mem_singleton, Prod.mk.injEq, Act.tag.injEq] at h1
                rw [h1.2, hx] at hok
                cases hok
          · refine ⟨fun t x' hx' => ?_, fun t msg x' hx' hok => ?_⟩
            · rcases mem _ hx' with (h1 | h1) | h1
              · exact hl.1 t x' h1
              · exact absurd h1 (hb2.1 t x')
              · simp at h1
                rw [h1.2, hy]
            · rcases mem _ hx' with (h1 | h1) | h1
              · exact absurd h1 (hl.2 t msg x')
              · exact absurd h1 (hb2.2 t msg x')
              · simp at h1
                obtain ⟨⟨rfl, rfl⟩, rfl⟩ := h1
                exact ⟨s.log ++ b, y, z, hcl⟩
        · have hb1 := built _ _ hB
          have hres : ∃ e, (buildEach m l s).2 = some e := by
            rcases hf with ⟨he, -⟩ | ⟨he, -⟩ <;> exact ⟨_, he⟩
          obtain ⟨e, he⟩ := hres
          unfold next
          rw [he]
          dsimp only
          rw [hb, hbt]
          have htail : ∀ x ∈ tail, (∃ j, x.1 = Act.prepare j) ∨ ∃ j, x.1 = Act.build j := by
            rcases hf with ⟨-, x, rfl, -⟩ | ⟨-, x, y, rfl, -⟩
            · simp
            · simp
          refine ⟨fun t x' hx' => ?_, fun t msg x' hx' hok => ?_⟩
          · simp only [List.mem_append] at hx'
            rcases hx' with h1 | h1 | h1
            · exact hl.1 t x' h1
            · exact absurd h1 (hb1.1 t x')
            · rcases htail _ h1 with ⟨j, hj⟩ | ⟨j, hj⟩ <;> cases hj
          · simp only [List.mem_append] at hx'
            rcases hx' with h1 | h1 | h1
            · exact absurd h1 (hl.2 t msg x')
            · exact absurd h1 (hb1.2 t msg x')
            · rcases htail _ h1 with ⟨j, hj⟩ | ⟨j, hj⟩ <;> cases hj

/-- **C157**: nothing is built, tagged or pushed unless all checks passed before it: whatever happens, the acts are checks
that only look, then — if there is anything more — those of the chosen variants in their order, all but the last of them with
success, and then — only if all were built with success — the tag. -/
theorem C157_order {W : Type} (m : Machine W) (a : Args) (d : Dir) (w : W) :
    (∀ x ∈ (release m a d w).1.log, Act.looks x.1 = true) ∨
    ∃ p l checks builds tail l₁ l₂, a.dryRun = false ∧ Checked a d p checks ∧ Chosen p a.variants l ∧ l = l₁ ++ l₂ ∧
      BuiltAll l₁ builds ∧ (release m a d w).1.log = checks ++ builds ++ tail ∧
      ((∃ i l₃ x, l₂ = i :: l₃ ∧ tail = [(.prepare i, x)] ∧ x.ok = false) ∨
       (∃ i l₃ x y, l₂ = i :: l₃ ∧ tail = [(.prepare i, x), (.build i, y)] ∧ x.ok = true ∧ y.ok = false) ∨
       (l₂ = [] ∧ ∃ msg x rest, Message a p msg ∧ tail = (.tag (Spec.tag p) msg, x) :: rest)) := by
  rcases ReleaseLemmas.release_log m a d w with ⟨e, he, hl⟩ | ⟨p, s, hc, hr⟩
  · exact Or.inl hl
  · rw [hr]
    cases hd : a.dryRun with
    | true => exact Or.inl hc.2.2.2.2
    | false =>
      rw [if_neg (by simp)]
      unfold perform
      cases hv : chooseVariants p a.variants with
      | none => exact Or.inl hc.2.2.2.2
      | some l =>
        dsimp only
        have hch := (C156_variants _ _ _).1 hv
        obtain ⟨b, hb, hcase⟩ := ReleaseLemmas.buildEach_log m l s
        rcases hcase with ⟨hn, hB⟩ | ⟨l₁, i, l₂, b₁, tail, hl, hB, hbt, hf⟩
        · unfold next
          rw [hn]
          dsimp only
          obtain ⟨c, hcl, hk⟩ := ReleaseLemmas.createTag_log m (tagOf p) (messageOf a p) (buildEach m l s).1
          refine Or.inr ⟨p, l, s.log, b, c, l, [], rfl, hc, hch, by simp, hB, by rw [hcl, hb], Or.inr (Or.inr ⟨rfl, messageOf a p, ?_⟩)⟩
          rcases hk with ⟨-, x, y, hc2, -⟩ | ⟨-, x, hc2, -⟩ | ⟨-, x, y, z, hc2, -⟩ <;> rw [hc2, ReleaseLemmas.tag_eq] <;>
            exact ⟨x, _, ReleaseLemmas.message_ok a p, rfl⟩
        · have hres : ∃ e, (buildEach m l s).2 = some e := by
            rcases hf with ⟨he, -⟩ | ⟨he, -⟩ <;> exact ⟨_, he⟩
          obtain ⟨e, he⟩ := hres
          unfold next
          rw [he]
          dsimp only
          refine Or.inr ⟨p, l, s.log, b₁, tail, l₁, i :: l₂, rfl, hc, hch, hl, hB, by rw [hb, hbt, List.append_assoc], ?_⟩
          rcases hf with ⟨-, x, ht, hx⟩ | ⟨-, x, y, ht, hx, hy⟩
          · exact Or.inl ⟨i, l₂, x, rfl, ht, hx⟩
          · exact Or.inr (Or.inl ⟨i, l₂, x, y, rfl, ht, hx, hy⟩)

/-- **C157**: a dry run only looks. -/
theorem C157_dry {W : Type} (m : Machine W) (a : Args) (d : Dir) (w : W) (hd : a.dryRun = true) :
    ∀ x ∈ (release m a d w).1.log, Act.looks x.1 = true := by
  rcases C157_order m a d w with h | ⟨_, _, _, _, _, _, _, h, _⟩
  · exact h
  · rw [hd] at h; cases h

namespace ReleaseExamples

/-- A package with two variants. -/
def pkg : Pkg := ⟨c!"foo", some c!"1.0", 2⟩

/-- What git knows: the tags here and the tags there. -/
abbrev Git := List Str × List Str

/-- A repository that is clean; the variants in `bad` cannot be built, `net` says whether pushing works. -/
def machine (bad : List (Option Nat)) (net : Bool) (ahead : Str) : Machine Git := fun a w =>
  match a with
  | .status => (w, ⟨true, true, []⟩)
  | .unpushed => (w, ⟨true, true, ahead⟩)
  | .tagged t => (w, ⟨true, true, if t ∈ w.1 then t else []⟩)
  | .prepare _ => (w, ⟨true, true, []⟩)
  | .build i => (w, ⟨true, !(bad.contains i), []⟩)
  | .tag t _ => if t ∈ w.1 then (w, ⟨true, false, []⟩) else ((t :: w.1, w.2), ⟨true, true, []⟩)
  | .push t => if net then ((w.1, t :: w.2), ⟨true, true, []⟩) else (w, ⟨true, false, []⟩)
  | .untag t => ((w.1.filter (· ≠ t), w.2), ⟨true, true, []⟩)

/-- The directory of that package. -/
def dir : Dir := { package := some pkg }

/-- The machine after some acts. -/
def after {W : Type} (m : Machine W) (acts : List Act) (w : W) : W := acts.foldl (fun w a => (m a w).1) w

/-- It succeeds, with everything built, tagged and pushed. -/
example : (release (machine [] true []) {} dir ([], [])).2 = none ∧
    (release (machine [] true []) {} dir ([], [])).1.w = ([c!"foo-1.0"], [c!"foo-1.0"]) ∧
    (release (machine [] true []) {} dir ([], [])).1.log.map (·.1) =
      [.status, .unpushed, .tagged c!"foo-1.0", .prepare (some 0), .build (some 0), .prepare (some 1), .build (some 1),
        .tag c!"foo-1.0" c!"Release foo-1.0", .push c!"foo-1.0"] := by decide +kernel

/-- Pushing fails: the tag is gone again. -/
example : (release (machine [] false []) {} dir ([], [])).2 = some .push ∧
    (release (machine [] false []) {} dir ([], [])).1.w = ([], []) := by decide +kernel

end ReleaseExamples

open ReleaseExamples in
/-- A release that fails leaves the variants that it has built: nothing is removed. -/
theorem C157_variants_false :
    ¬ ∀ (m : Machine Git) (a : Args) (d : Dir) (w : Git), (release m a d w).2 ≠ none →
      ∀ i x, (Act.build i, x) ∈ (release m a d w).1.log → x.ok = false := by
  intro h
  have := h (machine [some 1] true []) {} dir ([], []) (by decide +kernel) (some 0) ⟨true, true, []⟩ (by decide +kernel)
  revert this
  decide

open ReleaseExamples in
/-- A release with commits that nobody else has succeeds. -/
theorem C157_unpushed_false :
    ¬ ∀ (m : Machine Git) (a : Args) (d : Dir) (w : Git), (release m a d w).2 = none →
      ∀ x, (Act.unpushed, x) ∈ (release m a d w).1.log → x.out = [] := by
  intro h
  have := h (machine [] true c!"1234567 a commit") {} dir ([], []) (by decide +kernel) ⟨true, true, c!"1234567 a commit"⟩
    (by decide +kernel)
  revert this
  decide

/-- If asking for the state of the repository fails without printing anything on its standard output, as it does outside of a
repository, the repository counts as clean: for any machine, the release goes on as if it had been found clean. -/
theorem C157_status_false {W : Type} (m : Machine W) (w : W) (h : (m .status w).2 = ⟨true, false, []⟩) :
    (validate m ⟨w, []⟩).2 = none := by
  unfold validate
  have : (ask m .status (⟨w, []⟩ : St W)).2 = ⟨true, false, []⟩ := h
  dsimp only
  rw [this]
  rfl

/-- `--ignore-existing-tag` does not help: git makes no tag that there is already, so the release builds everything and
then fails. -/
theorem C157_ignore_false {W : Type} (m : Machine W) (a : Args) (d : Dir) (w : W) (hd : a.dryRun = false)
    (h : ∀ p, d.package = some p → ∀ msg w', (m (.tag (Spec.tag p) msg) w').2.ok = false) :
    (release m a d w).2 ≠ none := by
  intro hn
  obtain ⟨p, l, msg, checks, builds, x, y, hc, -, -, -, hx, -, hlog⟩ := C157_success m a d w hd hn
  rcases ReleaseLemmas.release_log m a d w with ⟨e, he, -⟩ | ⟨p', s, hc', hr⟩
  · rw [hn] at he; cases he
  · have hp : p' = p := by
      have h1 := hc.1
      rw [hc'.1] at h1
      exact Option.some.inj h1
    subst hp
    rw [hr, hd, if_neg (by simp)] at hn
    unfold perform at hn
    cases hv : chooseVariants p' a.variants with
    | none => rw [hv] at hn; cases hn
    | some l =>
      rw [hv] at hn
      dsimp only at hn
      unfold next at hn
      cases hb : (buildEach m l s).2 with
      | some e => rw [hb] at hn; cases hn
      | none =>
        rw [hb] at hn
        dsimp only at hn
        unfold createTag at hn
        dsimp only at hn
        rw [ReleaseLemmas.tag_eq, if_pos] at hn
        · cases hn
        · have := h p' hc'.1 (messageOf a p') (buildEach m l s).1.w
          show (!(m (.tag (Spec.tag p') (messageOf a p')) (buildEach m l s).1.w).2.ok) = true
          rw [this]
          rfl

open ReleaseExamples in
/-- The tag is there: the release with that option builds both variants and fails at the tag. -/
example : (release (machine [] true []) { ignoreExistingTag := true } dir ([c!"foo-1.0"], [c!"foo-1.0"])).2 = some .tag ∧
    ((Act.build (some 1), ⟨true, true, []⟩) ∈
      (release (machine [] true []) { ignoreExistingTag := true } dir ([c!"foo-1.0"], [c!"foo-1.0"])).1.log) := by decide +kernel

open ReleaseExamples in
/-- A crash between making the tag and pushing it: the same release is refused from then on, although there is no such tag at
the other end. -/
theorem C157_crash_false :
    ∃ acts, acts.IsPrefix ((release (machine [] true []) {} dir ([], [])).1.log.map (·.1)) ∧
      (after (machine [] true []) acts ([], [])).2 = [] ∧
      (release (machine [] true []) {} dir (after (machine [] true []) acts ([], []))).2 = some .tagged := by
  refine ⟨((release (machine [] true []) {} dir ([], [])).1.log.map (·.1)).take 8, List.take_prefix _ _, ?_, ?_⟩ <;> decide +kernel

open ReleaseExamples in
/-- A dry run succeeds where the release cannot: the choice of variants is not looked at. -/
theorem C157_dry_false :
    ¬ ∀ (m : Machine Git) (a : Args) (d : Dir) (w : Git), (release m { a with dryRun := true } d w).2 = none →
      ∃ m' : Machine Git, (release m' { a with dryRun := false } d w).2 = none := by
  intro h
  obtain ⟨m', hm⟩ := h (machine [] true []) { variants := some c!"7" } dir ([], []) (by decide +kernel)
  obtain ⟨p, l, _, _, _, _, _, hc, hl, _⟩ := C157_success m' _ dir ([], []) rfl hm
  have hp : p = pkg := (Option.some.inj hc.1).symm
  subst hp
  have : chooseVariants pkg (some c!"7") = some l := (C156_variants _ _ _).2 hl
  revert this
  have hnone : chooseVariants pkg (some c!"7") = none := by decide +kernel
  rw [hnone]
  intro h
  cases h

/-- The build system, the process and `--no-latest` that are given make no difference. -/
theorem C157_options_false {W : Type} (m : Machine W) (a : Args) (d : Dir) (w : W) (b : Option Str) (q : Str) (n : Bool) :
    release m { a with buildsys := b, process := q, noLatest := n } d w = release m a d w := rfl

/-- A package without a version is released as well, under the tag `name-unknown` (its files are
installed as version 0.0.0, C140). -/
theorem C157_version_false : ¬ ∀ (m : Machine ReleaseExamples.Git) (a : Args) (d : Dir) (w : ReleaseExamples.Git),
    a.dryRun = false → (release m a d w).2 = none → ∀ p, d.package = some p → p.version ≠ none := by
  intro h
  exact h (ReleaseExamples.machine [] true []) {} { package := some ⟨c!"foo", none, 0⟩ } ([], []) rfl (by decide +kernel) _ rfl rfl

end Rez.Props
