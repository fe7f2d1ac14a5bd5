import Verif.Model.Pattern
/-!
# Expressions that match alike

Two expressions are interchangeable when the matcher does the same for both, whatever follows.  Sequences may be
regrouped and empty parts left out.
-/

namespace Adoc
open Re
variable [Uni]

/-- The matcher does the same for both expressions: for every position and everything that may follow. -/
def Re.Same (a b : Re) : Prop := ∀ k s, m a k s = m b k s

/-- The parts of an expression in a row. -/
def Re.parts : Re → List Re
  | eps => []
  | seq a b => a.parts ++ b.parts
  | alt a b => [alt (a.parts.foldr seq eps) (b.parts.foldr seq eps)]
  | star g r => [star g (r.parts.foldr seq eps)]
  | cap n r => [cap n (r.parts.foldr seq eps)]
  | r => [r]

theorem Re.m_foldr_append (as bs : List Re) (k : RS → Option RS) (s : RS) :
    m ((as ++ bs).foldr seq eps) k s = m (as.foldr seq eps) (m (bs.foldr seq eps) k) s := by
  induction as generalizing s with
  | nil => rfl
  | cons a as ih =>
    show m a (m ((as ++ bs).foldr seq eps) k) s = m a (m (as.foldr seq eps) (m (bs.foldr seq eps) k)) s
    rw [show m ((as ++ bs).foldr seq eps) k = m (as.foldr seq eps) (m (bs.foldr seq eps) k) from funext ih]

theorem Re.m_parts (r : Re) : m (r.parts.foldr seq eps) = m r := by
  induction r with
  | eps => rfl
  | seq a b iha ihb =>
    funext k s
    show m ((a.parts ++ b.parts).foldr seq eps) k s = m a (m b k) s
    rw [Re.m_foldr_append, iha, ihb]
  | alt a b iha ihb =>
    funext k s
    show m (alt (a.parts.foldr seq eps) (b.parts.foldr seq eps)) k s = m (alt a b) k s
    simp only [m, iha, ihb]
  | star g r ih =>
    funext k s
    show m (star g (r.parts.foldr seq eps)) k s = m (star g r) k s
    simp only [m, ih]
  | cap n r ih =>
    funext k s
    show m (cap n (r.parts.foldr seq eps)) k s = m (cap n r) k s
    simp only [m, ih]
  | cls _ | bot | eot | bol | eol | wb | startHalf | endHalf => rfl

theorem Re.Same.of_parts {a b : Re} (h : a.parts = b.parts) : Re.Same a b := fun k s => by
  rw [← m_parts a, ← m_parts b, h]

/-- Expressions that match alike are found alike. -/
theorem search_same {a b : Re} (h : Re.Same a b) (pv : Option Char) (t : Text) : search a pv t = search b pv t := by
  have hm : ∀ pv t, matchAt a pv t = matchAt b pv t := fun pv t => by unfold matchAt; rw [h]
  induction t generalizing pv with
  | nil => rw [search, search, hm]
  | cons c t ih => rw [search, search, hm, ih]

end Adoc
