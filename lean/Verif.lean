import Verif.Props.Akima
import Verif.Props.AkimaError
import Verif.Props.Angle
import Verif.Props.AngleOps
import Verif.Props.ApplyTo
import Verif.Props.BesselJ0
import Verif.Props.BesselK
import Verif.Props.BesselSi
import Verif.Props.Bisect
import Verif.Props.Bounds
import Verif.Props.BoundsArgs
import Verif.Props.Celestial
import Verif.Props.CompoundArgs
import Verif.Props.Convert
import Verif.Props.Draw
import Verif.Props.DrawImage
import Verif.Props.DrawK
import Verif.Props.DrawPhot
import Verif.Props.EqHash
import Verif.Props.Fft
import Verif.Props.FftSize
import Verif.Props.Fits
import Verif.Props.FitsFactory
import Verif.Props.FitsWcs
import Verif.Props.FitsWcsJac
import Verif.Props.FitsWcsLocal
import Verif.Props.FitsWcsRound
import Verif.Props.FitsWcsTab
import Verif.Props.Flags
import Verif.Props.GSParams
import Verif.Props.GSParamsNone
import Verif.Props.Image
import Verif.Props.ImageConst
import Verif.Props.ImageIndex
import Verif.Props.ImageInt
import Verif.Props.ImagePix
import Verif.Props.ImageWcs
import Verif.Props.Integ
import Verif.Props.Integrate
import Verif.Props.InterpAlias
import Verif.Props.InterpBetween
import Verif.Props.InterpCheck
import Verif.Props.InterpImage
import Verif.Props.InterpName
import Verif.Props.InterpPad
import Verif.Props.InterpPhot
import Verif.Props.InterpPhotTable
import Verif.Props.InterpRange
import Verif.Props.InterpSeen
import Verif.Props.InterpWorld
import Verif.Props.InterpWorldK
import Verif.Props.Interpolant
import Verif.Props.InterpolantFourier
import Verif.Props.JacDeproject
import Verif.Props.KernelPlane
import Verif.Props.LanczosK
import Verif.Props.MaxSb
import Verif.Props.MeanPhot
import Verif.Props.MoffatFit
import Verif.Props.MoffatK
import Verif.Props.Moments
import Verif.Props.Noise
import Verif.Props.Photon
import Verif.Props.PhotonConv
import Verif.Props.PhotonImg
import Verif.Props.PhotonInit
import Verif.Props.PickleState
import Verif.Props.Place
import Verif.Props.Position
import Verif.Props.Profile
import Verif.Props.ProfileBand
import Verif.Props.ProfileDraw
import Verif.Props.ProfileFourier
import Verif.Props.ProfileK
import Verif.Props.ProfileLaw
import Verif.Props.ProfileOps
import Verif.Props.ProfileShoot
import Verif.Props.ProfileSizes
import Verif.Props.ProfileSum
import Verif.Props.ProfileTree
import Verif.Props.Projection
import Verif.Props.Pytree
import Verif.Props.Random
import Verif.Props.ReprFits
import Verif.Props.ReprGeom
import Verif.Props.ReprRng
import Verif.Props.ReprText
import Verif.Props.Scene
import Verif.Props.Shear
import Verif.Props.ShootLaw
import Verif.Props.Sky
import Verif.Props.SpergelSmall
import Verif.Props.SpergelStep
import Verif.Props.SpergelValue
import Verif.Props.SpergelValue2
import Verif.Props.SphereTriangle
import Verif.Props.Stretch
import Verif.Props.TransformStr
import Verif.Props.Utilities
import Verif.Props.WCS
import Verif.Props.WCSHeader
import Verif.Props.WCSShape
import Verif.Props.WcsApi
import Verif.Props.Wrap
