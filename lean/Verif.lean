import Verif.Props.Solvers
import Verif.Props.SolverHistory
import Verif.Props.Sparse
import Verif.Props.TPList
import Verif.Props.Axis
import Verif.Props.Generic1ND
import Verif.Props.Fourier
import Verif.Props.Utilities
import Verif.Props.Integrators
import Verif.Props.Contour
import Verif.Props.StencilCheb
import Verif.Props.StencilLeg
import Verif.Props.StencilChebU
import Verif.Props.StencilUltra
import Verif.Props.StencilJacobi
import Verif.Props.StencilJacobiPhi
import Verif.Props.StencilSpecial
import Verif.Props.StencilBasis
import Verif.Props.StencilJacobiPhi34
import Verif.Props.StencilBasisJacobi
import Verif.Props.Boundary
import Verif.Props.BoundaryData
import Verif.Props.ToOrtho
import Verif.Props.Norms
import Verif.Props.BoundaryExist
import Verif.Props.Recursions
import Verif.Props.Recursive
import Verif.Props.Lmat
import Verif.Props.Assembly
import Verif.Props.ChebMatrices
import Verif.Props.ChebMatricesSpecial
import Verif.Props.LegMatrices
import Verif.Props.LegMatricesWeighted
import Verif.Props.Forms
import Verif.Props.Curvilinear
import Verif.Props.CurvilinearExamples
import Verif.Props.Composite
import Verif.Props.Dofs
import Verif.Props.Leg2Cheb
import Verif.Props.FMM
import Verif.Props.FMMBuild
import Verif.Props.ChebTransforms
import Verif.Props.ChebQuadrature
import Verif.Props.GaussTransforms
import Verif.Props.GaussRules
import Verif.Props.DLT
import Verif.Props.ChebSolvers
import Verif.Props.Helmholtz
import Verif.Props.Biharmonic
import Verif.Model.Matvecs
import Verif.Lemmas.Matvecs
import Verif.Spec.Matvec
import Verif.Props.Matvecs
import Verif.Props.MatvecSums
import Verif.Props.MatvecSolvers
import Verif.Props.MatvecBiharmonic
import Verif.Props.MatvecHistory
import Verif.Props.FourierMatrices
import Verif.Props.Hermite
import Verif.Props.Laguerre
import Verif.Props.Helmholtz2D
import Verif.Props.DirectSolvers
import Verif.Props.Block
import Verif.Props.Project
import Verif.Props.Checkpoint
import Verif.Props.Xdmf
import Verif.Props.ChebUMatrices
import Verif.Props.CythonLA
import Verif.Props.ApplyMask
import Verif.Props.Evaluate
import Verif.Props.Convolve
import Verif.Props.TensorTransform
import Verif.Props.TensorBoundary
import Verif.Props.InnerForm
import Verif.Props.Integral
import Verif.Props.ExprEval
import Verif.Props.Refine
import Verif.Props.ToOrthoND
import Verif.Props.ChebUNorms
