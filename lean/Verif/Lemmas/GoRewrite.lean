import Verif.Lemmas.CodecApply

/-! # Lemmas: rewriting Go events twice -/

namespace Sds
open Sds.Spec

theorem goFieldOf_of_rew {g : List GoSeg → Bytes → Bytes} {k : Bytes} {w : GoVal} : ∀ {m : GoFields},
    GoFieldOf (goRewriteFields g m) k w → ∃ v, GoFieldOf m k v ∧ w = goRewrite (fun p => g (.field k :: p)) v
  | .nil, h => h.elim
  | .cons k' v rest, h => by
    rw [goRewriteFields] at h
    rcases h with ⟨rfl, rfl⟩ | h
    · exact ⟨v, Or.inl ⟨rfl, rfl⟩, rfl⟩
    · obtain ⟨v', h1, h2⟩ := goFieldOf_of_rew h
      exact ⟨v', Or.inr h1, h2⟩

theorem goItemOf_of_rew {g : List GoSeg → Bytes → Bytes} {w : GoVal} : ∀ {l : GoItems} {i j : Nat},
    GoItemOf (goRewriteItems g i l) j w → ∃ v, GoItemOf l j v ∧ w = goRewrite (fun p => g (.index (i + j) :: p)) v
  | .nil, _, _, h => h.elim
  | .cons v rest, i, 0, h => by
    rw [goRewriteItems] at h
    simp only [GoItemOf] at h
    exact ⟨v, rfl, h⟩
  | .cons v rest, i, j + 1, h => by
    rw [goRewriteItems] at h
    obtain ⟨v', h1, h2⟩ := goItemOf_of_rew (l := rest) (i := i + 1) (j := j) h
    rw [show i + 1 + j = i + (j + 1) from by omega] at h2
    exact ⟨v', h1, h2⟩

theorem goAt_of_rew {b' : Bytes} : ∀ {p : List GoSeg} {v : GoVal} {g : List GoSeg → Bytes → Bytes},
    GoAt (goRewrite g v) p (.str b') → ∃ b, GoAt v p (.str b) ∧ b' = g p b
  | [], v, g, h => by
    have h' := GoAt.nil_iff.1 h
    cases v with
    | str b => rw [goRewrite] at h'; cases h'; exact ⟨b, .here _, rfl⟩
    | map m => rw [goRewrite] at h'; cases h'
    | list l => rw [goRewrite] at h'; cases h'
    | other => rw [goRewrite] at h'; cases h'
  | x :: p, v, g, h => by
    cases v with
    | str b => rw [goRewrite] at h; cases h
    | other => rw [goRewrite] at h; cases h
    | map m =>
      rw [goRewrite] at h
      cases h with
      | field hk hp =>
        obtain ⟨v', h1, rfl⟩ := goFieldOf_of_rew hk
        obtain ⟨b, h2, h3⟩ := goAt_of_rew hp
        exact ⟨b, .field h1 h2, h3⟩
    | list l =>
      rw [goRewrite] at h
      cases h with
      | item hk hp =>
        obtain ⟨v', h1, rfl⟩ := goItemOf_of_rew hk
        obtain ⟨b, h2, h3⟩ := goAt_of_rew hp
        rw [Nat.zero_add] at h3
        exact ⟨b, .item h1 h2, h3⟩

/-- All paths of an event are paths of the library, if the keys are UTF-8. -/
theorem goAt_goPath {w : GoVal} : ∀ {q : List GoSeg} {v : GoVal}, KeysUtf8 v → GoAt v q w → ∃ p, q = goPath p
  | [], _, _, _ => ⟨[], rfl⟩
  | _ :: q, v, hu, h => by
    cases h with
    | field hk hp =>
      obtain ⟨s, rfl⟩ := hu.keys _ _ hk
      obtain ⟨p, rfl⟩ := goAt_goPath (hu.field hk) hp
      exact ⟨.field s :: p, rfl⟩
    | @item l i v' _ _ hk hp =>
      obtain ⟨p, rfl⟩ := goAt_goPath (hu.item hk) hp
      exact ⟨.index i :: p, rfl⟩

end Sds
