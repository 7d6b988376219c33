/-! Lemmas about lists. -/

namespace Verif

/-- Elements with distinct images are determined by them. -/
theorem eq_of_nodup_map {α β : Type} {f : α → β} {l : List α} (h : (l.map f).Nodup) {a b : α}
    (ha : a ∈ l) (hb : b ∈ l) (hab : f a = f b) : a = b := by
  induction l with
  | nil => simp at ha
  | cons x t ih =>
    rw [List.map_cons, List.nodup_cons] at h
    rcases List.mem_cons.1 ha with rfl | ha2 <;> rcases List.mem_cons.1 hb with rfl | hb2
    · rfl
    · exact absurd (hab ▸ List.mem_map_of_mem hb2) h.1
    · exact absurd (hab ▸ List.mem_map_of_mem ha2) h.1
    · exact ih h.2 ha2 hb2

end Verif
