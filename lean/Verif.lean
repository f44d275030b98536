import Verif.IndexTree.Props
import Verif.IndexTree.Periodic
import Verif.IndexTree.TaylorHood
import Verif.IndexTree.Descriptor
import Verif.Common.ReservedDeque
import Verif.Common.OverflowArray
import Verif.IndexTree.Subspace
import Verif.Leaf.Mapper
import Verif.Lagrange.Leaf
import Verif.Lagrange.DG
import Verif.HDiv.Orientation
import Verif.BSpline.Keys
import Verif.SubDomain.Iteration
import Verif.Dofs.SubEntity
import Verif.Container.Factory
import Verif.Container.FlatView
import Verif.Analytic.Polynomial
import Verif.Analytic.MonomialSet
import Verif.Analytic.Trigonometric
import Verif.Functions.Interpolate
import Verif.Functions.Discrete
import Verif.GridFunctions.Distance
import Verif.GridFunctions.Ancestor
import Verif.GridFunctions.Local
import Verif.GridFunctions.FaceNormal
import Verif.Common.SmallObject
import Verif.Leaf.MeshSize
import Verif.FE.Piola
import Verif.FE.RefBasis
import Verif.FE.Hermite
import Verif.FE.Triangle
import Verif.FE.Morley
import Verif.FE.Argyris
import Verif.FE.ArgyrisDof
import Verif.FE.Layouts
import Verif.FE.Numbering
import Verif.FE.Restrict
import Verif.FE.Push
import Verif.FE.Conform
import Verif.FE.HermiteConform
import Verif.Update
import Verif.Functions.RoundTrip
import Verif.FE.Interpolation
import Verif.FE.HermiteInterp
import Verif.FE.TriangleInterp
import Verif.FE.Descriptor
import Verif.FE.Copies
import Verif.HDiv.NormalTrace
import Verif.HDiv.NormalMixed
import Verif.HDiv.TangentialTrace
import Verif.HDiv.TangentialMixed
import Verif.Lagrange.Continuity
import Verif.Lagrange.Elements
import Verif.Lagrange.Prism
import Verif.Lagrange.PrismGrid
import Verif.Lagrange.Shapes
import Verif.Common.Erased
import Verif.Common.Callables
import Verif.GridFunctions.Lifetime
import Verif.Python.Nodes
import Verif.Python.Interpolate
import Verif.IndexTree.Transformed
import Verif.Functions.NodeToRange
import Verif.Container.Assign
import Verif.BSpline.Basis
import Verif.Lagrange.Nodal
import Verif.Lagrange.Boundary
import Verif.Functions.BasisLifetime
import Verif.Python.BasisTree
import Verif.Python.KeepAlive
import Verif.Lagrange.Reproduction
import Verif.Lagrange.Discontinuous
import Verif.SubDomain.View
import Verif.HDiv.RTSpace
import Verif.HDiv.NedelecSpace
import Verif.HDiv.Tetrahedra
import Verif.FE.TriangleSpace
import Verif.FE.HermiteSpace
import Verif.Dofs.BoundaryLeaf
import Verif.FE.BoundaryDofs
import Verif.HDiv.BoundaryDofs
import Verif.BSpline.Space
import Verif.Functions.Factories
import Verif.Lagrange.Hierarchical
import Verif.Lagrange.Nonconforming
import Verif.Lagrange.Refined
import Verif.HDiv.BDM
import Verif.HDiv.BDMSpace
import Verif.Lagrange.BoundaryValues
import Verif.Functions.Product
import Verif.Lagrange.Product
import Verif.BSpline.Boundary
import Verif.Functions.Renumbered
import Verif.Lagrange.Periodic
import Verif.HDiv.RTMixed
import Verif.HDiv.NedelecMixed
import Verif.SubDomain.IntersectionIterator
import Verif.Functions.Derivative
import Verif.GridFunctions.Global
import Verif.Lagrange.Constant
import Verif.HDiv.Trees
import Verif.HDiv.BoundaryMixed
import Verif.Dofs.Components
import Verif.HDiv.BoundaryTrees
import Verif.Functions.Dirichlet
import Verif.HDiv.BoundaryInterpolation
import Verif.Dofs.Selected
import Verif.HDiv.BoundaryPart
import Verif.Functions.Galerkin
import Verif.HDiv.GalerkinTrees
import Verif.Functions.LocalMatrix
import Verif.HDiv.PoissonTrees
import Verif.Functions.Stokes
import Verif.HDiv.StokesTrees
import Verif.Functions.Advection
import Verif.Functions.BlockMatrix
import Verif.HDiv.StokesNested
import Verif.Python.Systems
import Verif.Python.LocalAssembler
