import Verif.Props.CactusFile
import Verif.Proof.CactusFileIds

/-! # C60: identifiers of the edges in the file of a cactus -/

namespace VieCut
open CactusFile

/-- **C60, identifiers.**  No two edges of the file have the same identifier, also if the graph has parallel edges. -/
theorem C60_ids_distinct (C : MGraph) : (edgeIds (writeCactus C)).Nodup := by
  rw [edgeIds_written]
  have hmem : ∀ u (l : List Nat) x, x ∈ l.flatMap (fun e => if u > (C.edge u e).target then [] else [idOf C u e]) → ∃ e ∈ l, x = idOf C u e := by
    intro u l x hx
    obtain ⟨e, he, hx⟩ := List.mem_flatMap.1 hx
    split at hx
    · simp at hx
    · exact ⟨e, he, List.mem_singleton.1 hx⟩
  rw [List.nodup_flatMap]
  constructor
  · intro u _
    rw [List.nodup_flatMap]
    constructor
    · intro e _
      split <;> simp
    · refine (List.nodup_range.pairwise_of_forall_ne ?_)
      intro e _ e' _ hne x hx hx'
      obtain ⟨a, ha, h1⟩ := hmem u [e] x (by simpa using hx)
      obtain ⟨b, hb, h2⟩ := hmem u [e'] x (by simpa using hx')
      rw [List.mem_singleton.1 ha] at h1
      rw [List.mem_singleton.1 hb] at h2
      exact hne (idOf_inj (h1.symm.trans h2)).2
  · refine (List.nodup_range.pairwise_of_forall_ne ?_)
    intro u _ u' _ hne x hx hx'
    obtain ⟨a, -, h1⟩ := hmem u _ x hx
    obtain ⟨b, -, h2⟩ := hmem u' _ x hx'
    exact hne (idOf_inj (h1.symm.trans h2)).1

/-- The identifiers in the file of `fileSample`. -/
example : (edgeIds (writeCactus fileSample)).length = (edgesOf (readCactus (writeCactus fileSample))).length ∧
    0 < (edgeIds (writeCactus fileSample)).length := by decide +kernel

end VieCut
