import Verif.Spec.Pip
import Verif.Props.Bundle
import Verif.Lemmas.Requirement
import Verif.Lemmas.RequirementParse
import Verif.Props.Serialization
/-!
# C184 – C187: packages made with pip
-/
namespace Rez.Props
open Rez Rez.Files Rez.Pip Rez.Pip.Spec Rez.Spec.Files Rez.Build.Spec

/-! ## C184: the name of a specification -/

namespace PipLemmas

theorem ofNat_val {n : Nat} (h : n ≤ 122) : (Char.ofNat n).toNat = n := by
  have : n.isValidChar := Or.inl (by omega)
  simp [Char.ofNat, this, Char.toNat, Char.ofNatAux]

theorem norm_eq (s : Str) : norm s = packageName s := by
  unfold norm packageName
  rw [List.map_map]
  apply List.map_congr_left
  intro c _
  simp only [Function.comp]
  by_cases h : c = '-'
  · subst h; rfl
  · rw [if_neg h, if_neg]
    unfold lowerChar
    split
    · rename_i hu
      intro e
      simp only [Bool.and_eq_true, decide_eq_true_eq] at hu
      have := congrArg Char.toNat e
      rw [ofNat_val (by omega)] at this
      have e45 : ('-').toNat = 45 := rfl
      omega
    · exact h

theorem splitOnce_free {c : Char} {op n : Str} (h : c ∉ n) (r : Str) :
    splitOnce (c :: op) (n ++ r) = (splitOnce (c :: op) r).map fun x => (n ++ x.1, x.2) := by
  induction n with
  | nil =>
    rw [List.nil_append]
    cases splitOnce (c :: op) r <;> rfl
  | cons d n ih =>
    simp only [List.mem_cons, not_or] at h
    rw [List.cons_append, splitOnce, if_neg (by simp [List.isPrefixOf, h.1]), ih h.2]
    cases splitOnce (c :: op) r <;> rfl

theorem cut_free {c : Char} {op n : Str} (h : c ∉ n) (r : Str) : cut (n ++ r) (c :: op) = n ++ cut r (c :: op) := by
  unfold cut
  rw [splitOnce_free h]
  cases splitOnce (c :: op) r <;> rfl

theorem fold_free {n : Str} : ∀ (ops : List Str), (∀ op ∈ ops, ∃ c t, op = c :: t ∧ c ∉ n) → ∀ r, ops.foldl cut (n ++ r) = n ++ ops.foldl cut r := by
  intro ops
  induction ops with
  | nil => intro _ r; rfl
  | cons op ops ih =>
    intro h r
    obtain ⟨c, t, rfl, hc⟩ := h op List.mem_cons_self
    rw [List.foldl_cons, cut_free hc, ih (fun o ho => h o (List.mem_cons_of_mem _ ho)), List.foldl_cons]

theorem cut_head {s op : Str} (h : s.head? ≠ some '=') : (cut s op).head? ≠ some '=' := by
  unfold cut
  cases s with
  | nil =>
    cases op with
    | nil => simp [splitOnce]
    | cons c op => simp [splitOnce]
  | cons d s =>
    rw [splitOnce]
    split
    · simp
    · cases splitOnce op s with
      | none => simpa using h
      | some x => simpa using h

theorem cut_cons (c : Char) (s op : Str) : cut (c :: s) op = if op.isPrefixOf (c :: s) then [] else c :: cut s op := by
  unfold cut
  rw [splitOnce]
  split
  · rfl
  · cases splitOnce op s <;> rfl

theorem cut_op {op op' t : Str} (h : op ∈ operators) (h' : op' ∈ operators) (ht : t.head? ≠ some '=') :
    cut (op ++ t) op' = [] ∨ ∃ u, cut (op ++ t) op' = op ++ u ∧ u.head? ≠ some '=' := by
  have hu := cut_head (op := op') ht
  have key : ∀ (o : Str) (k : Nat), cut (op ++ t) op' = o → (o = [] ∨ o = op ++ cut t op') →
      cut (op ++ t) op' = [] ∨ ∃ u, cut (op ++ t) op' = op ++ u ∧ u.head? ≠ some '=' := by
    rintro o _ rfl (h | h)
    · exact .inl h
    · exact .inr ⟨_, h, hu⟩
  apply key _ 0 rfl
  clear key hu
  simp only [operators, List.mem_cons, List.not_mem_nil, or_false] at h h'
  cases t with
  | nil => rcases h with rfl | rfl | rfl | rfl | rfl | rfl | rfl | rfl <;> rcases h' with rfl | rfl | rfl | rfl | rfl | rfl | rfl | rfl <;> decide
  | cons d t =>
    have hd : d ≠ '=' := fun e => ht (by rw [e]; rfl)
    have hd' : ('=' == d) = false := by simpa using hd.symm
    generalize hx : cut (d :: t) op' = x
    rcases h with rfl | rfl | rfl | rfl | rfl | rfl | rfl | rfl <;> rcases h' with rfl | rfl | rfl | rfl | rfl | rfl | rfl | rfl <;>
      simp [cut_cons, List.isPrefixOf, hd', ← hx]

theorem fold_nil (ops : List Str) : ops.foldl cut [] = [] := by
  induction ops with
  | nil => rfl
  | cons op ops ih =>
    have : cut [] op = [] := by cases op <;> rfl
    rw [List.foldl_cons, this, ih]

theorem fold_op {op : Str} (h : op ∈ operators) : ∀ (ops : List Str), (∀ o ∈ ops, o ∈ operators) → op ∈ ops → ∀ t : Str, t.head? ≠ some '=' → ops.foldl cut (op ++ t) = [] := by
  intro ops
  induction ops with
  | nil => intro _ hm; exact absurd hm List.not_mem_nil
  | cons o ops ih =>
    intro ho hm t ht
    rw [List.foldl_cons]
    rcases List.mem_cons.1 hm with rfl | hm'
    · have : cut (op ++ t) op = [] := by
        cases e : op ++ t with
        | nil => simp only [List.append_eq_nil_iff] at e; rw [e.1]; rfl
        | cons c s =>
          rw [cut_cons, if_pos]
          rw [← e, List.isPrefixOf_iff_prefix]
          exact List.prefix_append _ _
      rw [this, fold_nil]
    · rcases cut_op h (ho o List.mem_cons_self) ht with e | ⟨u, e, hu⟩
      · rw [e, fold_nil]
      · rw [e]
        exact ih (fun x hx => ho x (List.mem_cons_of_mem _ hx)) hm' u hu

theorem op_mark : ∀ op ∈ operators, ∃ c t, op = c :: t ∧ Mark c := by
  intro op h
  simp only [operators, List.mem_cons, List.not_mem_nil, or_false] at h
  rcases h with rfl | rfl | rfl | rfl | rfl | rfl | rfl | rfl <;> exact ⟨_, _, rfl, by simp [Mark]⟩

theorem fold_plain {n : Str} (h : ∀ c ∈ n, ¬ Mark c) (r : Str) : operators.foldl cut (n ++ r) = n ++ operators.foldl cut r := by
  apply fold_free
  intro op hop
  obtain ⟨c, t, e, hc⟩ := op_mark op hop
  exact ⟨c, t, e, fun hm => h c hm hc⟩

end PipLemmas

open PipLemmas

/-- **C184**: the name of a specification — what is before the operator, trimmed, in lower case, with `_` for `-`.  (Nothing that
is no character of an operator is taken for one; after `!=` and `~=` no further `=` follows.) -/
theorem C184_name (n op t : Str) (hn : ∀ c ∈ n, ¬ Mark c) (ho : op ∈ comparisons) (ht : t.head? ≠ some '=') :
    specName (n ++ op ++ t) = packageName (trim n) := by
  unfold specName
  rw [List.append_assoc, fold_plain hn, fold_op ho operators (fun _ h => h) ho t ht, List.append_nil, norm_eq]

/-- **C184**: a specification without an operator is the name. -/
theorem C184_bare (n : Str) (hn : ∀ c ∈ n, ¬ Mark c) : specName n = packageName (trim n) := by
  unfold specName
  have := fold_plain hn []
  rw [List.append_nil, fold_nil, List.append_nil] at this
  rw [this, norm_eq]

example : specName c!"Foo-Bar >=1.0, <2" = c!"foo_bar" := C184_name c!"Foo-Bar " c!">=" c!"1.0, <2" (by unfold Mark; decide) (by decide) (by decide)
example : specName c!"PyYAML" = c!"pyyaml" := C184_bare _ (by unfold Mark; decide)

/-- **C184** fails for extras and markers: they stay in the name. -/
theorem C184_extras_false : specName c!"requests[security]==2.0" = c!"requests[security]" ∧ specName c!"requests; python_version<'3'" = c!"requests; python_version" := by decide


/-! ## C185: what is read -/

namespace PipLemmas

theorem stripPrefix_eq (p s : Str) : stripPrefix p s = if p.isPrefixOf s then some (s.drop p.length) else none := rfl

theorem lastEntry_snoc (key : Str) (ls : List Str) (l : Str) :
    lastEntry key (ls ++ [l]) = if key.isPrefixOf l then trim (l.drop key.length) else lastEntry key ls := by
  unfold lastEntry entries
  rw [List.filter_append]
  by_cases h : key.isPrefixOf l = true
  · rw [if_pos h]; simp [h]
  · rw [if_neg h]; simp [h]

/-- No line begins with two different keys. -/
theorem keys_apart {a b l : Str} (ha : a.isPrefixOf l = true) (hb : b.isPrefixOf l = true) (h : a.head? ≠ b.head?) (na : a ≠ []) (nb : b ≠ []) : False := by
  cases a with
  | nil => exact na rfl
  | cons x a =>
    cases b with
    | nil => exact nb rfl
    | cons y b =>
      cases l with
      | nil => simp [List.isPrefixOf] at ha
      | cons z l =>
        simp only [List.isPrefixOf, Bool.and_eq_true, beq_iff_eq] at ha hb
        exact h (by simp [ha.1, hb.1])

/-- What the lines of `pip show` say. -/
def told (ls : List Str) : Pip.Info :=
  ⟨lastEntry c!"Name: " ls, lastEntry c!"Version: " ls,
   ((entries c!"Requires: " ls).getLast?.map fun v => ((splitChar ',' v).map trim).filter fun s => !s.isEmpty).getD [],
   lastEntry c!"Summary: " ls⟩

theorem told_snoc (ls : List Str) (l : Str) : told (ls ++ [l]) = showLine (told ls) l := by
  have req : ((entries c!"Requires: " (ls ++ [l])).getLast?.map fun v => ((splitChar ',' v).map trim).filter fun s => !s.isEmpty).getD [] =
      if (c!"Requires: ").isPrefixOf l then ((splitChar ',' (l.drop 10)).map trim).filter (fun s => !s.isEmpty)
      else ((entries c!"Requires: " ls).getLast?.map fun v => ((splitChar ',' v).map trim).filter fun s => !s.isEmpty).getD [] := by
    unfold entries
    rw [List.filter_append]
    by_cases h : (c!"Requires: ").isPrefixOf l = true
    · rw [if_pos h]; simp [h]
    · rw [if_neg h]; simp [h]
  unfold told
  rw [req, lastEntry_snoc, lastEntry_snoc, lastEntry_snoc]
  unfold showLine
  simp only [stripPrefix_eq]
  by_cases h1 : (c!"Name: ").isPrefixOf l = true
  · have n2 : ¬ (c!"Version: ").isPrefixOf l = true := fun h => keys_apart h1 h (by decide) (by decide) (by decide)
    have n3 : ¬ (c!"Requires: ").isPrefixOf l = true := fun h => keys_apart h1 h (by decide) (by decide) (by decide)
    have n4 : ¬ (c!"Summary: ").isPrefixOf l = true := fun h => keys_apart h1 h (by decide) (by decide) (by decide)
    rw [if_pos h1, if_neg n2, if_neg n3, if_neg n4, if_pos h1]
  · by_cases h2 : (c!"Version: ").isPrefixOf l = true
    · have n3 : ¬ (c!"Requires: ").isPrefixOf l = true := fun h => keys_apart h2 h (by decide) (by decide) (by decide)
      have n4 : ¬ (c!"Summary: ").isPrefixOf l = true := fun h => keys_apart h2 h (by decide) (by decide) (by decide)
      rw [if_neg h1, if_pos h2, if_neg n3, if_neg n4, if_neg h1, if_pos h2]
    · by_cases h3 : (c!"Requires: ").isPrefixOf l = true
      · have n4 : ¬ (c!"Summary: ").isPrefixOf l = true := fun h => keys_apart h3 h (by decide) (by decide) (by decide)
        rw [if_neg h1, if_neg h2, if_pos h3, if_neg n4, if_neg h1, if_neg h2, if_pos h3]
        rfl
      · by_cases h4 : (c!"Summary: ").isPrefixOf l = true
        · rw [if_neg h1, if_neg h2, if_neg h3, if_pos h4, if_neg h1, if_neg h2, if_neg h3, if_pos h4]
        · rw [if_neg h1, if_neg h2, if_neg h3, if_neg h4, if_neg h1, if_neg h2, if_neg h3, if_neg h4]

theorem fold_told (ls : List Str) : ls.foldl showLine ⟨[], [], [], []⟩ = told ls := by
  induction ls using List.reverseRecOn with
  | nil => rfl
  | append_singleton ls l ih => rw [List.foldl_append, ih, told_snoc]; rfl

end PipLemmas

/-- **C185**: what is read of the answer of `pip show` — the last line with each key; and nothing without a name or a version. -/
theorem C185_show (s : Str) :
    parseShow s = if lastEntry c!"Name: " (Serial.linesOf s) = [] ∨ lastEntry c!"Version: " (Serial.linesOf s) = [] then none else
      some ⟨lastEntry c!"Name: " (Serial.linesOf s), lastEntry c!"Version: " (Serial.linesOf s),
        ((entries c!"Requires: " (Serial.linesOf s)).getLast?.map fun v => ((splitChar ',' v).map trim).filter fun s => !s.isEmpty).getD [],
        lastEntry c!"Summary: " (Serial.linesOf s)⟩ := by
  unfold parseShow
  rw [fold_told]
  simp only [told, List.isEmpty_iff, Bool.or_eq_true]

example : parseShow c!"Name: Foo\nVersion: 1.0\nRequires: a, b\nHome-page: x\n" = some ⟨c!"Foo", c!"1.0", [c!"a", c!"b"], []⟩ := by
  rw [C185_show]; decide

namespace PipLemmas

theorem dropSuffixes_prefix (p : Str) : ∀ n s, dropSuffixes p n s <+: s := by
  intro n
  induction n with
  | zero => intro s; exact List.prefix_refl _
  | succ n ih =>
    intro s
    rw [dropSuffixes]
    split
    · exact (ih _).trans (List.take_prefix _ _)
    · exact List.prefix_refl _

theorem dropSuffixes_of (p : Str) (hp : p ≠ []) {s : Str} (h : ¬ p <:+ s) : ∀ n, n ≥ (s ++ p).length → dropSuffixes p n (s ++ p) = s := by
  intro n hn
  have hl : p.length ≠ 0 := by rw [Ne, List.length_eq_zero_iff]; exact hp
  rw [List.length_append] at hn
  obtain ⟨n, rfl⟩ : ∃ k, n = k + 1 := ⟨n - 1, by omega⟩
  have hs : p.isSuffixOf (s ++ p) = true := by rw [List.isSuffixOf_iff_suffix]; exact List.suffix_append _ _
  rw [dropSuffixes, if_pos hs, List.length_append, Nat.add_sub_cancel, List.take_left]
  cases n with
  | zero => rfl
  | succ n =>
    rw [dropSuffixes, if_neg]
    rwa [List.isSuffixOf_iff_suffix]

theorem meta_keeps (ls : List Str) : ∀ i, (ls.foldl metaLine i).name = i.name ∧ (ls.foldl metaLine i).version = i.version := by
  induction ls with
  | nil => intro i; exact ⟨rfl, rfl⟩
  | cons l ls ih =>
    intro i
    rw [List.foldl_cons]
    obtain ⟨a, b⟩ := ih (metaLine i l)
    rw [a, b]
    unfold metaLine
    split
    · exact ⟨rfl, rfl⟩
    · split <;> exact ⟨rfl, rfl⟩

end PipLemmas

/-- **C185**: if pip does not answer, the package is found by a directory `NAME-VERSION.dist-info`; its name and version are those
of the directory. -/
theorem C185_scan_only (w : World) (fs : FS) (name : Str) (i : Pip.Info) (hl : ListsAll w.order) (h : scan w fs name = some i) :
    ∃ f e, (w.tmp ++ [f], e) ∈ fs ∧ i.name ++ '-' :: i.version <+: f ∧ c!".dist-info" <:+ f ∧ packageName i.name = packageName name ∧ '-' ∉ i.version := by
  unfold scan at h
  obtain ⟨⟨f, e⟩, hm, hd⟩ := List.exists_of_findSome?_eq_some h
  refine ⟨f, e, BuildCopyLemmas.mem_children.1 ((hl _).mem_iff.1 hm), ?_⟩
  unfold distInfo at hd
  split at hd
  · rename_i hs
    split at hd
    · exact absurd hd (by simp)
    · rename_i n v hr
      split at hd
      · rename_i hn
        have hi := Option.some.inj hd
        have k := meta_keeps (match mget fs (w.tmp ++ [f, c!"METADATA"]) with | some (.file c) => Serial.linesOf c | _ => []) ⟨n, v, [], []⟩
        have k1 : i.name = n := by rw [← hi]; exact k.1
        have k2 : i.version = v := by rw [← hi]; exact k.2
        rw [k1, k2]
        refine ⟨?_, by rwa [List.isSuffixOf_iff_suffix] at hs, by rw [← norm_eq, ← norm_eq]; exact hn, rsplitOnce_tail hr⟩
        rw [← rsplitOnce_eq hr]
        exact dropSuffixes_prefix _ _ _
      · exact absurd hd (by simp)
  · exact absurd hd (by simp)

namespace PipLemmas

theorem entries_snoc (key : Str) (ls : List Str) (l : Str) :
    entries key (ls ++ [l]) = if key.isPrefixOf l then entries key ls ++ [l.drop key.length] else entries key ls := by
  unfold entries
  rw [List.filter_append, List.map_append]
  by_cases h : key.isPrefixOf l = true <;> simp [h]

theorem meta_told (n v : Str) (ls : List Str) : ls.foldl metaLine ⟨n, v, [], []⟩ =
    ⟨n, v, (entries c!"Requires-Dist: " ls).map fun r => (Rez.splitWs r).head?.getD r, (entries c!"Summary: " ls).getLast?.getD []⟩ := by
  induction ls using List.reverseRecOn with
  | nil => rfl
  | append_singleton ls l ih =>
    rw [List.foldl_append, List.foldl_cons, List.foldl_nil, ih, entries_snoc, entries_snoc]
    unfold metaLine
    rw [stripPrefix_eq, stripPrefix_eq]
    by_cases h1 : (c!"Summary: ").isPrefixOf l = true
    · have h2 : (c!"Requires-Dist: ").isPrefixOf l = false := by
        cases l with
        | nil => rfl
        | cons x l =>
          simp only [List.isPrefixOf, Bool.and_eq_true, beq_iff_eq] at h1
          simp [List.isPrefixOf, ← h1.1]
      simp [h1, h2]
    · by_cases h2 : (c!"Requires-Dist: ").isPrefixOf l = true <;> simp [h1, h2]

end PipLemmas

/-- **C185**: its requirements are the first words of all lines `Requires-Dist:` of its `METADATA`, in their order, and its summary
the last line `Summary:`; none if there is no such file. -/
theorem C185_metadata (w : World) (fs : FS) (name : Str) (i : Pip.Info) (h : scan w fs name = some i) :
    ∃ f lines, (lines = match mget fs (w.tmp ++ [f, c!"METADATA"]) with | some (.file c) => Serial.linesOf c | _ => []) ∧
      i.name ++ '-' :: i.version <+: f ∧
      i.requires = (entries c!"Requires-Dist: " lines).map (fun r => (Rez.splitWs r).head?.getD r) ∧
      i.summary = (entries c!"Summary: " lines).getLast?.getD [] := by
  unfold scan at h
  obtain ⟨⟨f, e⟩, hm, hd⟩ := List.exists_of_findSome?_eq_some h
  unfold distInfo at hd
  split at hd
  · split at hd
    · exact absurd hd (by simp)
    · rename_i n v hr
      split at hd
      · have hi := Option.some.inj hd
        rw [meta_told] at hi
        refine ⟨f, _, rfl, ?_, ?_, ?_⟩
        · rw [← hi]
          rw [← rsplitOnce_eq hr]
          exact dropSuffixes_prefix _ _ _
        · rw [← hi]
          cases mget fs (w.tmp ++ [f, c!"METADATA"]) with
          | none => rfl
          | some x => cases x <;> rfl
        · rw [← hi]
          cases mget fs (w.tmp ++ [f, c!"METADATA"]) with
          | none => rfl
          | some x => cases x <;> rfl
      · exact absurd hd (by simp)
  · exact absurd hd (by simp)

/-- **C185**: and a directory `NAME-VERSION.dist-info` is found. -/
theorem C185_scan_finds (w : World) (fs : FS) (name n v : Str) (e : Entry) (hl : ListsAll w.order)
    (hm : (w.tmp ++ [n ++ '-' :: v ++ c!".dist-info"], e) ∈ fs) (hn : packageName n = packageName name) (hv : '-' ∉ v)
    (hi : ¬ c!".dist-info" <:+ n ++ '-' :: v) : (scan w fs name).isSome = true := by
  unfold scan
  rw [List.findSome?_isSome_iff]
  refine ⟨_, (hl _).mem_iff.2 (BuildCopyLemmas.mem_children.2 hm), ?_⟩
  unfold distInfo
  have hs : (c!".dist-info").isSuffixOf (n ++ '-' :: v ++ c!".dist-info") = true := by
    rw [List.isSuffixOf_iff_suffix]; exact List.suffix_append _ _
  rw [if_pos hs]
  dsimp only
  rw [dropSuffixes_of _ (by decide) hi _ (Nat.le_refl _), rsplitOnce_append n hv]
  dsimp only
  rw [if_pos (by rw [norm_eq, norm_eq]; exact hn)]
  rfl

/-- A disk on which pip has installed `foo`, with an optional dependency. -/
def fooDisk : FS :=
  [([c!"tmp"], .dir), ([c!"tmp", c!"Foo-1.0.dist-info"], .dir),
   ([c!"tmp", c!"Foo-1.0.dist-info", c!"METADATA"], .file c!"Name: Foo\nSummary: a foo\nRequires-Dist: bar-x>=1.0; extra == 'dev'\n")]

/-- A machine with it, on which pip says nothing. -/
def fooWorld : World where
  fs := fooDisk
  locals := [c!"local"]
  releases := [c!"rel"]
  tmp := [c!"tmp"]
  tmpText := c!"/tmp"
  read := fun _ => none
  runs := fun _ => true
  install := fun fs _ _ => (true, fs)
  show_ := fun _ _ _ => none
  order := id
  depth := 5

example : (scan fooWorld fooDisk c!"foo").isSome = true :=
  C185_scan_finds fooWorld fooDisk c!"foo" c!"Foo" c!"1.0" .dir (fun _ => List.Perm.refl _) (by decide) (by decide) (by decide) (by decide)

/-- **C185** fails for requirements in `METADATA`: the range stays in the name, and optional ones are required. -/
theorem C185_optional_false : (scan fooWorld fooDisk c!"foo").map requirements = some [c!"bar_x>=1.0;"] := by decide +kernel

/-! ## C186: what is written -/

namespace PipLemmas
open BuildCopyLemmas BundleLemmas

theorem placeOf_plain (base : Path) {i : Pip.Info} (h : Component (packageName i.name)) (hv : Component i.version) :
    placeOf base i = base ++ [packageName i.name, i.version] := by
  unfold placeOf
  rw [norm_eq, FilesLemmas.join_two _ h hv]

theorem copyTree_near (w : World) (fs : FS) (dst : Path) : ∀ s ∈ (copyTree w fs dst).1, Near dst s := by
  unfold Pip.copyTree
  have := dir_near w.order (fun _ => false) w.depth fs w.tmp dst
  rcases hc : Build.copyDir w.order (fun _ => false) w.depth fs w.tmp dst with ⟨s, e⟩
  rw [hc] at this
  cases e <;> exact this

theorem create_near (w : World) (fs : FS) (dir : Path) (i : Pip.Info) : ∀ s ∈ (create w fs dir i).1, Near dir s := by
  unfold create
  exact next_near (makeAll_near _ _) fun fs => next_near (fun s hs => near_mono (List.prefix_append _ _) (copyTree_near _ _ _ s hs))
    fun fs s hs => near_mono (List.prefix_append _ _) (writeFile_near _ _ _ s hs)

theorem copyTree_done {w : World} {fs : FS} {dst : Path} {st : List Step} (h : copyTree w fs dst = (st, .done)) :
    ∃ k, Build.copyDir w.order (fun _ => false) w.depth fs w.tmp dst = (st, .done k) := by
  unfold Pip.copyTree at h
  rcases hc : Build.copyDir w.order (fun _ => false) w.depth fs w.tmp dst with ⟨s, e⟩
  rw [hc] at h
  cases e with
  | done k => simp only [Prod.mk.injEq, and_true] at h; exact ⟨k, by rw [h]⟩
  | failed => simp at h
  | unfinished => simp at h

theorem create_done {w : World} {fs : FS} {dir : Path} {i : Pip.Info} {st : List Step} (hl : ListsAll w.order) (ha : Apart w.tmp dir)
    (hok : Ok fs) (h : create w fs dir i = (st, .done)) : Ok (run fs st) ∧ Holds w fs dir i (run fs st) := by
  unfold create at h
  obtain ⟨s1, s2, h1, h2, rfl⟩ := next_done h
  obtain ⟨s3, s4, h3, h4, rfl⟩ := next_done h2
  have hb : ¬ blocked fs dir = true := by
    intro hb
    unfold Bundle.makeAll at h1
    rw [if_pos hb] at h1
    simp at h1
  have e1 : s1 = mkdirAll dir := by
    unfold Bundle.makeAll at h1
    rw [if_neg hb] at h1
    simp only [Prod.mk.injEq, and_true] at h1
    exact h1.symm
  have ok1 : Ok (run fs s1) := by rw [e1]; exact ok_mkdirAll hok hb
  have keep1 : ∀ r, mget (run fs s1) (w.tmp ++ r) = mget fs (w.tmp ++ r) :=
    near_source ha (by rw [e1]; exact mkdirAll_near dir) fs
  obtain ⟨k, hk⟩ := copyTree_done h3
  have ha' : Apart w.tmp (dir ++ [c!"python"]) := by
    have := apart_below ha [] [c!"python"]
    rwa [List.append_nil] at this
  have g := dir_good hl _ _ _ _ _ _ _ ha' ok1 hk
  rw [FilesLemmas.run_append, FilesLemmas.run_append]
  generalize run (run fs s1) s3 = fs2 at *
  have hd : mget fs2 dir = some .dir := g.ok.parents (dir ++ [c!"python"]) dir (List.prefix_append _ _) (by simp) (by rw [g.dir]; rfl)
  have e4 : mget fs2 (dir ++ [c!"package.py"]) ≠ some .dir ∧ s4 = [.create (dir ++ [c!"package.py"]), .write (dir ++ [c!"package.py"]) (.file (packagePy i))] := by
    unfold Bundle.writeFile at h4
    split at h4
    · simp at h4
    · rename_i hn
      simp only [Prod.mk.injEq, and_true] at h4
      exact ⟨hn, h4.symm⟩
  refine ⟨by rw [e4.2]; exact ok_write g.ok hd e4.1, ?_, ?_⟩
  · rw [writeFile_done h4, if_pos rfl]
  · intro x r hx
    rw [writeFile_done h4, if_neg]
    · have := g.get x r
      rw [if_pos ⟨rfl, by rw [keep1]; exact hx⟩, keep1] at this
      rw [← this, List.append_assoc]
      rfl
    · intro e
      have := List.append_cancel_left e
      exact absurd (List.cons.inj this).1 (by decide)

/-- A change within the temporary directory and the directory of packages. -/
def Inside (w : World) (base : Path) (fs fs' : FS) : Prop :=
  ∀ q, ¬ w.tmp <+: q → ¬ base <+: q → mget fs' q = mget fs q ∨ (q <+: base ∧ mget fs q = none ∧ mget fs' q = some .dir)

theorem inside_refl (w : World) (base : Path) (fs : FS) : Inside w base fs fs := fun _ _ _ => .inl rfl

theorem inside_trans {w : World} {base : Path} {a b c : FS} (h1 : Inside w base a b) (h2 : Inside w base b c) : Inside w base a c := by
  intro q hq hb
  rcases h1 q hq hb with e | ⟨p, e, f⟩
  · rcases h2 q hq hb with e2 | ⟨p2, e2, f2⟩
    · exact .inl (e2.trans e)
    · exact .inr ⟨p2, e ▸ e2, f2⟩
  · rcases h2 q hq hb with e2 | ⟨_, e2, _⟩
    · exact .inr ⟨p, e, e2.trans f⟩
    · rw [f] at e2; cases e2

theorem inside_install {w : World} (hw : Fair w) (base : Path) (fs : FS) (py : Str) (args : List Str) : Inside w base fs (w.install fs py args).2 :=
  fun q hq _ => .inl (hw.only fs py args q hq)

theorem inside_create {w : World} {base : Path} {fs : FS} {i : Pip.Info} (h : Component (packageName i.name)) (hv : Component i.version) (pre : List Step)
    (hp : pre <+: (create w fs (placeOf base i) i).1) : Inside w base fs (run fs pre) := by
  intro q _ hb
  have hn := run_near (fun s hs => create_near w fs (placeOf base i) i s (hp.subset hs)) fs q
  rw [placeOf_plain base h hv] at hn
  rcases hn (fun hc => hb ((List.prefix_append _ _).trans hc)) with e | ⟨p, e, f⟩
  · exact .inl e
  · refine .inr ⟨?_, e, f⟩
    rcases List.prefix_or_prefix_of_prefix p (List.prefix_append base _) with h1 | h1
    · exact h1
    · exact absurd h1 hb

theorem each_inside {w : World} (hw : Fair w) (hn : Named w) (a : Args) (py : Str) (base : Path) : ∀ (l : List Str) (fs : FS), Inside w base fs (each w a py base fs l).fs := by
  intro l
  induction l with
  | nil => intro fs; exact inside_refl _ _ _
  | cons s l ih =>
    intro fs
    rw [each]
    split
    · exact ih fs
    · have h0 := inside_install hw base fs py (pipArgs w a s)
      generalize w.install fs py (pipArgs w a s) = x at h0
      dsimp only
      split
      · exact h0
      · split
        · exact inside_trans h0 (ih _)
        · rename_i i hi
          obtain ⟨c1, c2⟩ := hn _ _ _ _ hi
          have h1 := inside_trans h0 (inside_create (w := w) (base := base) (fs := x.2) c1 c2 _ (List.prefix_refl _))
          split
          · exact inside_trans h1 (ih _)
          · exact h1

end PipLemmas

/-- **C186**: however the command ends, nothing changes outside the temporary directory and the directory for packages, but for
directories that lead to it. -/
theorem C186_within (w : World) (a : Args) (hw : Fair w) (hn : Named w) (q : Path) (ht : ¬ w.tmp <+: q) (hb : ¬ basePath w a <+: q) :
    mget (execute w a).fs q = mget w.fs q ∨ (q <+: basePath w a ∧ mget w.fs q = none ∧ mget (execute w a).fs q = some .dir) := by
  have key : Inside w (basePath w a) w.fs (execute w a).fs := by
    unfold execute
    split
    · exact inside_refl _ _ _
    · split
      · exact inside_refl _ _ _
      · exact inside_refl _ _ _
      · exact each_inside hw hn _ _ _ _ _
  exact key q ht hb

/-- **C186**: a package that is made, stopped anywhere: nothing changes outside its directory, but for directories that lead to it. -/
theorem C186_stopped (w : World) (fs : FS) (dir : Path) (i : Pip.Info) (pre : List Step) (h : Stops (create w fs dir i).1 pre) :
    Within fs dir (run fs pre) :=
  BuildCopyLemmas.run_near (fun s hs => create_near w fs dir i s (h.subset hs)) fs

/-- **C186**: a package that is made to the end holds its file and a copy of everything in the temporary directory. -/
theorem C186_created (w : World) (fs : FS) (dir : Path) (i : Pip.Info) (st : List Step) (hl : ListsAll w.order) (ha : Apart w.tmp dir)
    (hok : Ok fs) (h : create w fs dir i = (st, .done)) : Holds w fs dir i (run fs st) := (create_done hl ha hok h).2

namespace PipLemmas

theorem each_calls (w : World) (a : Args) (hd : a.dryRun = false) (py : Str) (base : Path) : ∀ (l : List Str) (fs : FS),
    (∃ k, k ≤ l.length ∧ (each w a py base fs l).calls = (l.take k).map (pipArgs w a)) ∧
    ((each w a py base fs l).end_ = .done → (each w a py base fs l).calls = l.map (pipArgs w a)) := by
  intro l
  induction l with
  | nil => intro fs; exact ⟨⟨0, Nat.le_refl _, rfl⟩, fun _ => rfl⟩
  | cons s l ih =>
    intro fs
    have one : ∃ k, k ≤ (s :: l).length ∧ [pipArgs w a s] = ((s :: l).take k).map (pipArgs w a) := ⟨1, by simp, by simp⟩
    have more : ∀ fs', (∃ k, k ≤ (s :: l).length ∧ pipArgs w a s :: (each w a py base fs' l).calls = ((s :: l).take k).map (pipArgs w a)) ∧
        ((each w a py base fs' l).end_ = .done → pipArgs w a s :: (each w a py base fs' l).calls = (s :: l).map (pipArgs w a)) := by
      intro fs'
      obtain ⟨⟨k, hk, e⟩, d⟩ := ih fs'
      refine ⟨⟨k + 1, by simpa using hk, by rw [e]; rfl⟩, fun h => by rw [d h]; rfl⟩
    rw [each, if_neg (by rw [hd]; simp)]
    generalize w.install fs py (pipArgs w a s) = x
    dsimp only
    split
    · exact ⟨one, fun h => by cases h⟩
    · split
      · exact more x.2
      · split
        · exact more _
        · rename_i e _
          exact ⟨one, fun h => absurd h (by assumption)⟩

theorem each_dry (w : World) (a : Args) (hd : a.dryRun = true) (py : Str) (base : Path) : ∀ (l : List Str) (fs : FS), each w a py base fs l = ⟨fs, [], .done⟩ := by
  intro l
  induction l with
  | nil => intro fs; rfl
  | cons s l ih => intro fs; rw [each, if_pos hd, ih]

/-- Up to the last. -/
theorem each_split (w : World) (a : Args) (hd : a.dryRun = false) (hw : Fair w) (hn : Named w) (py : Str) (base : Path) (hl : ListsAll w.order) (ha : Apart w.tmp base) (s : Str) :
    ∀ (l : List Str) (fs : FS), Ok fs → (each w a py base fs (l ++ [s])).end_ = .done →
      ∃ fs1, Ok fs1 ∧ (each w a py base fs (l ++ [s])).fs = (each w a py base fs1 [s]).fs ∧ (each w a py base fs1 [s]).end_ = .done := by
  intro l
  induction l with
  | nil => intro fs hok h; exact ⟨fs, hok, rfl, h⟩
  | cons t l ih =>
    intro fs hok h
    rw [List.cons_append, each, if_neg (by rw [hd]; simp)] at h ⊢
    have hx := hw.ok fs py (pipArgs w a t) hok
    generalize w.install fs py (pipArgs w a t) = x at h hx ⊢
    dsimp only at h ⊢
    split at h
    · cases h
    · rename_i hf
      rw [if_neg hf]
      split at h
      · exact ih _ hx h
      · rename_i i hi
        obtain ⟨c1, c2⟩ := hn _ _ _ _ hi
        split at h
        · rename_i hy
          simp only [hy]
          refine ih _ ?_ h
          have ha' : Apart w.tmp (placeOf base i) := by
            rw [placeOf_plain base c1 c2]
            have := BundleLemmas.apart_below ha [] [packageName i.name, i.version]
            rwa [List.append_nil] at this
          exact (create_done hl ha' hx (st := (create w x.2 (placeOf base i) i).1) (Prod.ext rfl hy)).1
        · rename_i hy
          exact absurd h hy

end PipLemmas

/-- **C186**: with `--dry-run`, pip is not called and nothing changes. -/
theorem C186_dry (w : World) (a : Args) (h : a.dryRun = true) : (execute w a).fs = w.fs ∧ (execute w a).calls = [] := by
  unfold execute
  split
  · exact ⟨rfl, rfl⟩
  · split
    · exact ⟨rfl, rfl⟩
    · exact ⟨rfl, rfl⟩
    · rw [each_dry w a h]; exact ⟨rfl, rfl⟩

/-- **C186**: without python, without the file of requirements or without anything to install, the command fails: pip is not
called and nothing changes. -/
theorem C186_refused (w : World) (a : Args) (h : findPython w a = none ∨ specs w a = none ∨ specs w a = some []) :
    (execute w a).fs = w.fs ∧ (execute w a).calls = [] ∧ (execute w a).end_ = .failed := by
  unfold execute
  split
  · exact ⟨rfl, rfl, rfl⟩
  · rename_i p hp
    split
    · exact ⟨rfl, rfl, rfl⟩
    · exact ⟨rfl, rfl, rfl⟩
    · rename_i l h1 h2
      rcases h with h | h | h
      · rw [hp] at h; cases h
      · rw [h2] at h; cases h
      · rw [h2] at h; exact absurd (Option.some.inj h) h1

/-- **C186**: pip is called for the specifications in order, once each, up to the first that fails; for all if the command
succeeds. -/
theorem C186_calls (w : World) (a : Args) (l : List Str) (hd : a.dryRun = false) (hs : specs w a = some l) :
    (∃ k, k ≤ l.length ∧ (execute w a).calls = (l.take k).map (pipArgs w a)) ∧
    ((execute w a).end_ = .done → (execute w a).calls = l.map (pipArgs w a)) := by
  unfold execute
  split
  · exact ⟨⟨0, Nat.zero_le _, by simp⟩, fun h => by cases h⟩
  · rw [hs]
    cases l with
    | nil => exact ⟨⟨0, Nat.zero_le _, rfl⟩, fun h => by cases h⟩
    | cons s l => exact each_calls w a hd _ _ _ _

/-- **C186**: what is to be installed: the arguments, then the lines of the file that are not empty and no comments, trimmed. -/
theorem C186_specs (w : World) (a : Args) (f text : Str) (h : a.requirement = some f) (hr : w.read f = some text) :
    ∃ l, specs w a = some (a.packages ++ l) ∧
      ∀ x, x ∈ l ↔ x ≠ [] ∧ x.head? ≠ some '#' ∧ ∃ y ∈ Serial.linesOf text, x = trim y := by
  refine ⟨requirementLines text, by unfold specs; rw [h]; simp only [hr]; rfl, fun x => ?_⟩
  unfold requirementLines
  simp only [List.mem_filter, List.mem_map, Bool.and_eq_true, Bool.not_eq_true', bne_iff_ne, ne_eq]
  constructor
  · rintro ⟨⟨y, hy, rfl⟩, h1, h2⟩
    exact ⟨fun e => (by rw [e] at h1; cases h1), h2, y, hy, rfl⟩
  · rintro ⟨h1, h2, y, hy, rfl⟩
    exact ⟨⟨y, hy, rfl⟩, by simpa using h1, h2⟩

/-- **C186**: what pip is told: where to install what; and the flags that are asked for. -/
theorem C186_args (w : World) (a : Args) (s : Str) :
    [c!"-m", c!"pip", c!"install", c!"--target", w.tmpText, s] <+: pipArgs w a s ∧
    ∀ x ∈ (pipArgs w a s).drop 6, (x = c!"--no-deps" ∧ a.noDeps = true) ∨ (x = c!"--force-reinstall" ∧ a.force = true) ∨ x = c!"-v" ∨ x = c!"-q" := by
  refine ⟨?_, ?_⟩
  · unfold pipArgs
    rw [List.append_assoc, List.append_assoc]
    exact List.prefix_append _ _
  · unfold pipArgs
    cases a.noDeps <;> cases a.force <;> by_cases h1 : a.verbose > 1 <;> by_cases h0 : a.verbose = 0 <;> simp [h1, h0]

theorem C186_flags (w : World) (a : Args) (s : Str) : (a.noDeps = true → c!"--no-deps" ∈ (pipArgs w a s).drop 6) ∧ (a.force = true → c!"--force-reinstall" ∈ (pipArgs w a s).drop 6) := by
  unfold pipArgs
  constructor
  · intro h; rw [h]; simp
  · intro h; rw [h]; cases a.noDeps <;> simp

/-- **C186**: pip is told to be quiet exactly without `-v`, and to say more exactly with two of them or more. -/
theorem C186_verbose (w : World) (a : Args) (s : Str) :
    (c!"-q" ∈ (pipArgs w a s).drop 6 ↔ a.verbose = 0) ∧ (c!"-v" ∈ (pipArgs w a s).drop 6 ↔ 2 ≤ a.verbose) := by
  unfold pipArgs
  cases a.noDeps <;> cases a.force <;> by_cases h1 : a.verbose > 1 <;> by_cases h0 : a.verbose = 0 <;> simp [h1, h0] <;> omega

/-- **C186**: the python that is used is the one that was given, whether it runs or not; otherwise the first of these that runs. -/
theorem C186_python (w : World) (a : Args) :
    (∀ p, a.python = some p → findPython w a = some p) ∧
    (a.python = none → ∀ p, findPython w a = some p ↔
      ∃ pre post, [c!"python3", c!"python", c!"python3.11", c!"python3.10", c!"python3.9"] = pre ++ p :: post ∧ w.runs p = true ∧
        ∀ q ∈ pre, w.runs q = false) := by
  refine ⟨fun p h => by unfold findPython; rw [h], fun h p => ?_⟩
  unfold findPython
  rw [h]
  simp only
  rw [List.find?_eq_some_iff_append]
  constructor
  · rintro ⟨h1, pre, post, h2, h3⟩; exact ⟨pre, post, h2, h1, fun q hq => by simpa using h3 q hq⟩
  · rintro ⟨pre, post, h2, h1, h3⟩; exact ⟨h1, pre, post, h2, fun q hq => by simp [h3 q hq]⟩

/-- **C186**: packages are made in the directory that was given; otherwise in the release directory if asked for, or else in the
local one. -/
theorem C186_place (w : World) (a : Args) :
    (∀ p, a.place = some p → basePath w a = p) ∧
    (a.place = none → basePath w a = if a.release = true then w.releases else w.locals) := by
  refine ⟨fun p h => by unfold basePath; rw [h]; rfl, fun h => by unfold basePath; rw [h]; rfl⟩

/-- **C186**: when the command succeeds, the package of the last specification is there as it was found after pip installed it:
its file, and a copy of everything in the temporary directory; unless it was not found. -/
theorem C186_last (w : World) (a : Args) (l : List Str) (s : Str) (hd : a.dryRun = false) (hw : Fair w) (hn : Named w) (hl : ListsAll w.order)
    (hok : Ok w.fs) (ha : Apart w.tmp (basePath w a)) (hs : specs w a = some (l ++ [s])) (h : (execute w a).end_ = .done) :
    ∃ py fs1 fs2, findPython w a = some py ∧ w.install fs1 py (pipArgs w a s) = (true, fs2) ∧
      ((discover w py fs2 s = none ∧ (execute w a).fs = fs2) ∨
       ∃ i, discover w py fs2 s = some i ∧ Holds w fs2 (basePath w a ++ [packageName i.name, i.version]) i (execute w a).fs) := by
  cases hp : findPython w a with
  | none => unfold execute at h; rw [hp] at h; cases h
  | some py =>
    have he : execute w a = each w a py (basePath w a) w.fs (l ++ [s]) := by
      unfold execute
      rw [hp]
      simp only [hs]
      cases l <;> rfl
    rw [he] at h ⊢
    obtain ⟨fs1, ok1, e, d⟩ := each_split w a hd hw hn py _ hl ha s l w.fs hok h
    rw [e]
    rw [each, if_neg (by rw [hd]; simp)] at d ⊢
    have hx := hw.ok fs1 py (pipArgs w a s) ok1
    refine ⟨py, fs1, (w.install fs1 py (pipArgs w a s)).2, rfl, ?_⟩
    generalize w.install fs1 py (pipArgs w a s) = x at d hx ⊢
    dsimp only at d ⊢
    split at d
    · cases d
    · rename_i hf
      rw [if_neg hf]
      have hf' : x.1 = true := by simpa using hf
      refine ⟨Prod.ext hf' rfl, ?_⟩
      split at d
      · rename_i hi
        exact .inl ⟨hi, rfl⟩
      · rename_i i hi
        right
        refine ⟨i, hi, ?_⟩
        obtain ⟨c1, c2⟩ := hn _ _ _ _ hi
        split at d
        · rename_i hy
          simp only [hy]
          have ha' : Apart w.tmp (placeOf (basePath w a) i) := by
            rw [placeOf_plain _ c1 c2]
            have := BundleLemmas.apart_below ha [] [packageName i.name, i.version]
            rwa [List.append_nil] at this
          have := (create_done hl ha' hx (st := (create w x.2 (placeOf (basePath w a) i) i).1) (Prod.ext rfl hy)).2
          rw [← placeOf_plain _ c1 c2]
          exact this
        · rename_i hy
          exact absurd d hy

/-- Pip on a machine: it makes a module of the name of the specification, and says so. -/
def pipDisk (fs : FS) (n : Str) : FS := mset fs [c!"tmp", n] (.file c!"code")

/-- A machine with it. -/
def pipWorld : World where
  fs := [([], .dir), ([c!"tmp"], .dir), ([c!"local"], .dir)]
  locals := [c!"local"]
  releases := [c!"rel"]
  tmp := [c!"tmp"]
  tmpText := c!"/tmp"
  read := fun _ => none
  runs := fun _ => true
  install := fun fs _ args => if args[5]? = some c!"ghost" then (true, fs) else (true, pipDisk fs (args[5]?.getD []))
  show_ := fun _ _ n => if n = c!"a" then some c!"Name: a\nVersion: 1\nRequires: dep\n" else if n = c!"b" then some c!"Name: b\nVersion: 2\nSummary: it's C:\\new\n" else none
  order := id
  depth := 5

/-- **C186** fails for several packages: the second one contains the files of the first. -/
theorem C186_shared_false : (execute pipWorld { packages := [c!"a", c!"b"] }).end_ = .done ∧
    mget (execute pipWorld { packages := [c!"a", c!"b"] }).fs [c!"local", c!"b", c!"2", c!"python", c!"a"] = some (.file c!"code") := by
  decide +kernel

/-- **C186** fails for dependencies: the package requires one that is not made. -/
theorem C186_dependency_false : (execute pipWorld { packages := [c!"a"] }).end_ = .done ∧
    mget (execute pipWorld { packages := [c!"a"] }).fs [c!"local", c!"a", c!"1", c!"package.py"] =
      some (.file (packagePy ⟨c!"a", c!"1", [c!"dep"], []⟩)) ∧
    mget (execute pipWorld { packages := [c!"a"] }).fs [c!"local", c!"dep"] = none := by
  decide +kernel

/-- **C186** fails for what is not found: the command succeeds, and nothing was made. -/
theorem C186_nothing_false : (execute pipWorld { packages := [c!"ghost"] }).end_ = .done ∧
    (execute pipWorld { packages := [c!"ghost"] }).fs = pipWorld.fs := by
  decide +kernel

/-- **C186** fails for a package that is there: without `--force`, its file is replaced, and its old files stay. -/
theorem C186_existing_false :
    let fs : FS := [([], .dir), ([c!"tmp"], .dir), ([c!"local"], .dir), ([c!"local", c!"a"], .dir), ([c!"local", c!"a", c!"1"], .dir),
      ([c!"local", c!"a", c!"1", c!"package.py"], .file c!"mine"), ([c!"local", c!"a", c!"1", c!"python"], .dir), ([c!"local", c!"a", c!"1", c!"python", c!"old"], .file c!"o")]
    let r := execute { pipWorld with fs := fs } { packages := [c!"a"] }
    r.end_ = .done ∧ mget r.fs [c!"local", c!"a", c!"1", c!"package.py"] ≠ some (.file c!"mine") ∧
    mget r.fs [c!"local", c!"a", c!"1", c!"python", c!"old"] = some (.file c!"o") := by
  decide +kernel

example : (execute pipWorld { packages := [c!"a"] }).calls = [[c!"-m", c!"pip", c!"install", c!"--target", c!"/tmp", c!"a", c!"-q"]] := by decide +kernel

/-- A pip that only fills the temporary directory, and always answers. -/
def fairWorld : World := { pipWorld with
  install := fun fs _ args =>
    if mget fs [c!"tmp"] = some .dir ∧ mget fs ([c!"tmp"] ++ [args[5]?.getD []]) ≠ some .dir then
      (true, run fs [.create ([c!"tmp"] ++ [args[5]?.getD []]), .write ([c!"tmp"] ++ [args[5]?.getD []]) (.file c!"code")])
    else (false, fs)
  show_ := fun _ _ n => if n = c!"a" then some c!"Name: a\nVersion: 1\nRequires: dep\n" else some [] }

theorem fairWorld_fair : Fair fairWorld where
  ok := by
    intro fs py args hok
    show Ok (if _ then _ else _ : Bool × FS).2
    split
    · rename_i h
      exact BuildCopyLemmas.ok_write hok h.1 h.2
    · exact hok
  only := by
    intro fs py args q hq
    show mget (if _ then _ else _ : Bool × FS).2 q = _
    split
    · rw [BundleLemmas.write_get, if_neg]
      rintro rfl
      exact hq (List.prefix_append _ _)
    · rfl

theorem fairWorld_named : Named fairWorld := by
  intro py fs s i h
  unfold discover at h
  generalize specName s = n at h
  by_cases e : n = c!"a"
  · subst e
    have : parseShow c!"Name: a\nVersion: 1\nRequires: dep\n" = some i := h
    rw [show parseShow c!"Name: a\nVersion: 1\nRequires: dep\n" = some ⟨c!"a", c!"1", [c!"dep"], []⟩ by decide +kernel] at this
    cases this
    exact ⟨⟨by decide, by decide, by decide⟩, ⟨by decide, by decide, by decide⟩⟩
  · have : (match (if n = c!"a" then some c!"Name: a\nVersion: 1\nRequires: dep\n" else some []) with
      | some out => parseShow out
      | none => scan fairWorld fs n) = some i := h
    rw [if_neg e] at this
    have h0 : parseShow [] = none := by decide
    rw [show parseShow [] = some i from this] at h0
    cases h0

theorem fairWorld_ok : Ok fairWorld.fs := by
  refine ⟨by decide, fun p q hq hne hp => ?_⟩
  have hm : p ∈ [([] : Path), [c!"tmp"], [c!"local"]] := by
    by_contra hc
    simp only [List.mem_cons, List.not_mem_nil, or_false, not_or] at hc
    have : mget fairWorld.fs p = none := by
      show mget [(([] : Path), Entry.dir), ([c!"tmp"], .dir), ([c!"local"], .dir)] p = none
      simp [mget, Ne.symm hc.1, Ne.symm hc.2.1, Ne.symm hc.2.2]
    rw [this] at hp; cases hp
  have : q = [] := by
    simp only [List.mem_cons, List.not_mem_nil, or_false] at hm
    rcases hm with rfl | rfl | rfl
    · exact List.prefix_nil.1 hq
    · rcases q with _ | ⟨x, q⟩
      · rfl
      · have h1 := List.cons_prefix_cons.1 hq
        rw [List.prefix_nil.1 h1.2, h1.1] at hne
        exact absurd rfl hne
    · rcases q with _ | ⟨x, q⟩
      · rfl
      · have h1 := List.cons_prefix_cons.1 hq
        rw [List.prefix_nil.1 h1.2, h1.1] at hne
        exact absurd rfl hne
  rw [this]; rfl

example := C186_last fairWorld { packages := [c!"x", c!"a"] } [c!"x"] c!"a" rfl fairWorld_fair fairWorld_named (fun _ => List.Perm.refl _) fairWorld_ok
  (by unfold Apart; decide) rfl (by decide +kernel)

/-! ## C187: the file -/

namespace PipLemmas
open Serial Rez.Spec.Serial SerialLemmas

/-- A text that can be between double quotes. -/
def Plain (s : Str) : Prop := '"' ∉ s ∧ '\\' ∉ s ∧ '\n' ∉ s ∧ '\r' ∉ s

theorem lower_other {c : Char} (h : lowerChar c ≠ c) : ∃ n, 97 ≤ n ∧ n ≤ 122 ∧ lowerChar c = Char.ofNat n := by
  unfold lowerChar at h ⊢
  split
  · rename_i hu
    simp only [Bool.and_eq_true, decide_eq_true_eq] at hu
    exact ⟨c.toNat + 32, by omega, by omega, rfl⟩
  · rename_i hu
    rw [if_neg hu] at h
    exact absurd rfl h

theorem packageName_free {s : Str} {d : Char} (hd : d.toNat < 97 ∧ d ≠ '_') (h : d ∉ s) : d ∉ packageName s := by
  unfold packageName
  intro hm
  obtain ⟨c, hc, e⟩ := List.mem_map.1 hm
  by_cases h1 : c = '-'
  · rw [if_pos h1] at e; exact hd.2 e.symm
  · rw [if_neg h1] at e
    by_cases h2 : lowerChar c = c
    · rw [h2] at e; subst e; exact h hc
    · obtain ⟨n, a, b, e'⟩ := lower_other h2
      rw [e'] at e
      have := congrArg Char.toNat e
      rw [ofNat_val b] at this
      omega

theorem packageName_plain {s : Str} (h : Plain s) : Plain (packageName s) :=
  ⟨packageName_free (by decide) h.1, packageName_free (by decide) h.2.1, packageName_free (by decide) h.2.2.1, packageName_free (by decide) h.2.2.2⟩

theorem softened_plain {s : Str} (h : '\\' ∉ s ∧ '\n' ∉ s ∧ '\r' ∉ s) : Plain (softened s) := by
  have key : ∀ d : Char, d ≠ '\'' → (d = '"' ∨ d ∉ s) → d ∉ softened s := by
    intro d hd hs hm
    obtain ⟨c, hc, e⟩ := List.mem_map.1 hm
    split at e
    · exact hd e.symm
    · rename_i hn
      rw [e] at hc hn
      rcases hs with hs | hs
      · exact hn hs
      · exact hs hc
  exact ⟨key _ (by decide) (.inl rfl), key _ (by decide) (.inr h.1), key _ (by decide) (.inr h.2.1), key _ (by decide) (.inr h.2.2)⟩

theorem requires_expr {l : List Str} (h : ∀ s ∈ l, Plain s) : Expr (requiresText l) (.list (l.map .str)) := by
  unfold requiresText
  cases l with
  | nil => exact .list (s := []) (.none (blank_dec rfl))
  | cons x l =>
    have := Expr.list (items_join (fun s => quoted s) Py.str (l := x :: l) (fun s hs => quoted_plain (h s hs)) (a := c!"\n    ") (sp := c!"\n    ") (b := c!"\n")
      (blank_dec rfl) (blank_dec rfl) (blank_dec rfl))
    rw [if_neg (by simp)]
    simpa using this

end PipLemmas

open Serial Rez.Spec.Serial SerialLemmas in
/-- **C187**: for plain texts, the file is a program that assigns the name, the version, the summary (with single quotes for
double ones), the author, the requirements, and defines the commands. -/
theorem C187_program (i : Pip.Info) (hn : Plain i.name) (hv : Plain i.version) (hs : '\\' ∉ i.summary ∧ '\n' ∉ i.summary ∧ '\r' ∉ i.summary)
    (hr : ∀ r ∈ i.requires, Plain r) :
    Program (packagePy i) [.assign c!"name" (.str (packageName i.name)), .assign c!"version" (.str i.version),
      .assign c!"description" (.str (i.summary.map fun c => if c = '"' then '\'' else c)), .assign c!"authors" (.list [.str c!"pip-rez-next"]),
      .assign c!"requires" (.list (((i.requires.filter (· ≠ [])).map packageName).map .str)),
      .function c!"commands" [c!"import os", c!"env.PYTHONPATH.prepend(\"{root}/python\")"]] := by
  have h1 := program_assign (n := c!"name") (ident_dec rfl) (quoted_plain (packageName_plain hn))
  have h2 := program_assign (n := c!"version") (ident_dec rfl) (quoted_plain hv)
  have h3 := program_assign (n := c!"description") (ident_dec rfl) (quoted_plain (softened_plain hs))
  have h4 := program_assign (n := c!"authors") (ident_dec rfl)
    (Expr.list (Items.last (a := []) (b := []) (blank_dec rfl) (quoted_plain (s := c!"pip-rez-next") (by decide)) (blank_dec rfl)))
  have er : requirements i = (i.requires.filter (· ≠ [])).map packageName := by
    unfold requirements
    have e1 : (i.requires.filter fun r => !r.isEmpty) = i.requires.filter (· ≠ []) := by
      apply List.filter_congr
      intro x _
      cases x <;> simp
    rw [e1]
    exact List.map_congr_left fun x _ => norm_eq x
  have hq : ∀ r ∈ requirements i, Plain r := by
    rw [er]
    intro r hm
    obtain ⟨x, hx, rfl⟩ := List.mem_map.1 hm
    exact packageName_plain (hr x (List.mem_filter.1 hx).1)
  have h5 := program_assign (n := c!"requires") (ident_dec rfl) (requires_expr hq)
  have h6 := Program.function (n := c!"commands") (body := [c!"import os", c!"env.PYTHONPATH.prepend(\"{root}/python\")"])
    (List.all_eq_true.mp (ident_dec rfl).1) (ident_dec rfl).2 ⟨c!"import os", by simp, by decide⟩ (by unfold Without; decide) .done
  have := program_append h1 (program_append h2 (program_append h3 (program_append h4 (Program.blank (program_append h5 (.blank h6))))))
  unfold packagePy
  rw [norm_eq, ← er]
  simpa [indented, softened, quoted] using this

example : Plain c!"Foo-Bar" := by unfold Plain; decide

open Serial Rez.Spec.Serial in
/-- **C187** fails for a backslash in the summary: it is not written twice. -/
theorem C187_backslash_false : ∃ i : Pip.Info, c!"description = \"it's C:\\new\"\n" <:+: packagePy i ∧ i.summary = c!"it's C:\\new" ∧
    ¬ ∃ m, Literal c!"it's C:\\new" m := by
  refine ⟨⟨c!"b", c!"2", [], c!"it's C:\\new"⟩, ⟨c!"name = \"b\"\nversion = \"2\"\n", _, rfl⟩, rfl, ?_⟩
  rintro ⟨m, h⟩
  rcases h with _ | ⟨_, _, _, _, _ | ⟨_, _, _, _, _ | ⟨_, _, _, _, _ | ⟨_, _, _, _, _ | ⟨_, _, _, _, _ | ⟨_, _, _, _, _ | ⟨_, _, _, _, h⟩⟩⟩⟩⟩⟩⟩
  cases h
  contradiction

end Rez.Props
