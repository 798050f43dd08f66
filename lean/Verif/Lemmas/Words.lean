import Verif.Base.Words
/-!
# Splitting into words
-/
namespace Rez

theorem splitWs_word (w rest : Str) (hw : w ≠ []) (h : ∀ c ∈ w, isWs c = false) :
    splitWs (w ++ ' ' :: rest) = w :: splitWs rest := by
  have hb : isWs ' ' = true := by decide
  have hsp : splitWs (' ' :: rest) = splitWs rest := by cases rest <;> simp [splitWs, hb]
  induction w with
  | nil => exact absurd rfl hw
  | cons c w ih =>
    have hc := h c List.mem_cons_self
    cases w with
    | nil =>
      show splitWs (c :: ' ' :: rest) = _
      rw [splitWs, if_neg (by rw [hc]; simp)]
      rw [if_pos hb, hsp]
    | cons d w =>
      have ih := ih (by simp) fun x hx => h x (List.mem_cons_of_mem _ hx)
      have hd := h d (List.mem_cons_of_mem _ List.mem_cons_self)
      show splitWs (c :: (d :: (w ++ ' ' :: rest))) = _
      rw [splitWs, if_neg (by rw [hc]; simp)]
      rw [if_neg (by rw [hd]; simp)]
      have ih' : splitWs (d :: (w ++ ' ' :: rest)) = (d :: w) :: splitWs rest := ih
      rw [ih']

theorem splitWs_last (w : Str) (hw : w ≠ []) (h : ∀ c ∈ w, isWs c = false) : splitWs w = [w] := by
  induction w with
  | nil => exact absurd rfl hw
  | cons c w ih =>
    have hc := h c List.mem_cons_self
    cases w with
    | nil => rw [splitWs, if_neg (by rw [hc]; simp)]
    | cons d w =>
      have ih := ih (by simp) fun x hx => h x (List.mem_cons_of_mem _ hx)
      have hd := h d (List.mem_cons_of_mem _ List.mem_cons_self)
      rw [splitWs, if_neg (by rw [hc]; simp)]
      rw [if_neg (by rw [hd]; simp), ih]

theorem splitWs_join (l : List Str) (h : ∀ w ∈ l, w ≠ [] ∧ ∀ c ∈ w, isWs c = false) : splitWs (joinWith c!" " l) = l := by
  induction l with
  | nil => rfl
  | cons w l ih =>
    cases l with
    | nil =>
      have := h w List.mem_cons_self
      simpa [joinWith] using splitWs_last w this.1 this.2
    | cons v l =>
      have hw := h w List.mem_cons_self
      have ih := ih fun x hx => h x (List.mem_cons_of_mem _ hx)
      show splitWs (w ++ c!" " ++ joinWith c!" " (v :: l)) = _
      rw [List.append_assoc]
      show splitWs (w ++ ' ' :: joinWith c!" " (v :: l)) = _
      rw [splitWs_word w _ hw.1 hw.2, ih]

end Rez
